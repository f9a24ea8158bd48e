import Verif.Props.AbdTransform
import Mathlib.RingTheory.PowerSeries.Derivative
import Mathlib.RingTheory.PowerSeries.WellKnown
import Mathlib.Tactic.FinCases

/-!
# C31: composition and inverse of BMS transformations; C30: agreement of the two implementations; C32: aberration
-/

namespace Verif.Props.AbdTransform

open Verif.AbdTransform Verif.Spec.AbdTransform Finset

/-! ## C31 -/

section ring
variable {A : Type*} [CommRing A]

/-- The mixing law twice is the mixing law once, with the product of the conformal factors and the sum of the `e`. -/
theorem mix_mix (ik1 ik2 e1 e2 : A) (psi : Nat → A) (n : Nat) (hn : n ≤ 4) : mix ik2 e2 (mix ik1 e1 psi) n = mix (ik1 * ik2) (e1 + e2) psi n := by
  interval_cases n <;> simp [mix, sum_range_succ, Nat.choose] <;> ring

theorem mix_one (psi : Nat → A) (n : Nat) (hn : n ≤ 4) : mix 1 0 psi n = psi n := by
  interval_cases n <;> simp [mix, sum_range_succ]

theorem D_ik (D : Derivation ℤ A A) (S : Trans A) : D S.ik = -(S.ik ^ 2 * D S.k) := by
  have h := congrArg D S.k_ik
  rw [D.leibniz, D.map_one_eq_zero, smul_eq_mul, smul_eq_mul] at h
  linear_combination S.ik * h - D S.ik * S.k_ik

/-- The times of the composition. -/
theorem comp_time (S T : Trans A) (u : A) : (S.comp T).time u = T.time (S.time u) := by
  simp only [Trans.time, Trans.comp]
  linear_combination (-(T.k * T.alpha)) * S.k_ik

/-- The quantity `e` of the composition is the sum, when the second is differentiated with the operator of the intermediate frame. -/
theorem comp_e (D : Derivation ℤ A A) (S T : Trans A) (u : A) :
    (S.comp T).e D u = S.e D u + T.e (S.eth D 0) (S.time u) := by
  simp only [Trans.e, Trans.comp, Trans.time, Trans.eth, D.leibniz, map_add, smul_eq_mul, D_ik D S]
  push_cast
  linear_combination (T.ik * D T.k * (u - S.alpha - S.ik * T.alpha) - T.ik * D T.k * (u - S.alpha)) * S.k_ik + (S.ik * D S.k * (u - S.alpha - S.ik * T.alpha)) * T.k_ik

/-- C31: transforming the Weyl components with `S` and then with `T` is transforming them with the composition. -/
theorem comp_mix (D : Derivation ℤ A A) (S T : Trans A) (u : A) (psi : Nat → A) (n : Nat) (hn : n ≤ 4) :
    mix T.ik (T.e (S.eth D 0) (S.time u)) (mix S.ik (S.e D u) psi) n = mix (S.comp T).ik ((S.comp T).e D u) psi n := by
  rw [mix_mix _ _ _ _ _ _ hn, comp_e]
  rfl

/-- C31 for the shear: since `1/k = γ(1 - v·r)` has no part with `ell > 1`, `ðð(1/k) = 0`. -/
theorem comp_shear (D : Derivation ℤ A A) (S T : Trans A) (hS : D (D S.ik) = 0) (sigma : A) :
    shear T.ik (S.eth D 1 (S.eth D 0 T.alpha)) (shear S.ik (D (D S.alpha)) sigma) = shear (S.comp T).ik (D (D (S.comp T).alpha)) sigma := by
  have h : D (D (S.comp T).alpha) = D (D S.alpha) + 2 * (D S.ik * D T.alpha) + S.ik * D (D T.alpha) := by
    simp only [Trans.comp, D.leibniz, map_add, smul_eq_mul, hS]
    ring
  have h2 : S.eth D 1 (S.eth D 0 T.alpha) = S.ik * (2 * (D S.ik * D T.alpha) + S.ik * D (D T.alpha)) := by
    simp only [Trans.eth]
    push_cast
    simp only [zero_mul, sub_zero, D.leibniz, smul_eq_mul, D_ik D S]
    ring
  rw [h, h2]
  simp only [shear, Trans.comp]
  ring

/-- The inverse of a transformation, as functions of the original directions. -/
def inv (S : Trans A) : Trans A := ⟨S.ik, S.k, -(S.k * S.alpha), by rw [mul_comm]; exact S.k_ik⟩

theorem comp_inv (S : Trans A) : (S.comp (inv S)).k = 1 ∧ (S.comp (inv S)).ik = 1 ∧ (S.comp (inv S)).alpha = 0 := by
  refine ⟨S.k_ik, by rw [← S.k_ik]; exact mul_comm _ _, ?_⟩
  simp only [Trans.comp, inv]
  linear_combination (-S.alpha) * S.k_ik

/-- C31: a transformation followed by its inverse restores the time, the Weyl components and the shear. -/
theorem inverse_restores (D : Derivation ℤ A A) (S : Trans A) (hS : D (D S.ik) = 0) (u : A) (psi : Nat → A) (sigma : A) :
    (inv S).time (S.time u) = u ∧
    (∀ n, n ≤ 4 → mix (inv S).ik ((inv S).e (S.eth D 0) (S.time u)) (mix S.ik (S.e D u) psi) n = psi n) ∧
    shear (inv S).ik (S.eth D 1 (S.eth D 0 (inv S).alpha)) (shear S.ik (D (D S.alpha)) sigma) = sigma := by
  obtain ⟨h1, h2, h3⟩ := comp_inv S
  refine ⟨?_, fun n hn => ?_, ?_⟩
  · rw [← comp_time, Trans.time, h1, h3]
    ring
  · rw [comp_mix D S (inv S) u psi n hn, Trans.e, h1, h2, h3, D.map_one_eq_zero, D.map_zero, mul_zero, zero_mul, sub_zero, mix_one psi n hn]
  · rw [comp_shear D S (inv S) hS, h2, h3, D.map_zero, D.map_zero, shear]
    ring

/-- The expression that is evaluated for `ðk/k`: `ð(v·r)/(1 - v·r)`, for `1/k = γ(1 - v·r)`. -/
theorem ethk_over_k (D : Derivation ℤ A A) (S : Trans A) (g ig vr : A) (hg : g * ig = 1) (hD : D g = 0) (h : S.ik = g * (1 - vr)) : (1 - vr) * (S.ik * D S.k) = D vr := by
  have h1 := D_ik D S
  rw [h, D.leibniz, hD, map_sub, D.map_one_eq_zero, smul_eq_mul, smul_zero, ← h] at h1
  have h2 : (1 - vr) = ig * S.ik := by rw [h]; linear_combination (-(1 - vr)) * hg
  rw [h2]
  linear_combination ig * h1 + D vr * hg

end ring

/-- A case in which all hypotheses hold: power series in `x`, `1/k = 1 - x`, `α = x²`. -/
example : ∃ S : Trans (PowerSeries ℚ), (PowerSeries.derivative ℚ) ((PowerSeries.derivative ℚ) S.ik) = 0 ∧ (PowerSeries.derivative ℚ) S.k ≠ 0 ∧ S.alpha ≠ 0 :=
  ⟨⟨PowerSeries.mk 1, 1 - PowerSeries.X, PowerSeries.X ^ 2, PowerSeries.mk_one_mul_one_sub_eq_one ℚ⟩, by simp, by
    intro h
    have := congrArg (PowerSeries.coeff 0) h
    simp [PowerSeries.coeff_derivative] at this, by simp⟩

/-- The data evaluated in one direction are those of the transformation `S`: `ev` is evaluation in that direction, `D0` and `D1` are `ð` (in the convention of Geroch, Held and Penrose) on functions of spin weight 0 and 1.
The modes are differentiated with the operator of Newman and Penrose, which is `√2` times that. -/
structure Represents {A : Type*} [CommRing A] (ev : A →+* ℂ) (D0 D1 : A → A) (S : Trans A) (g : ℝ) (d : Dir) : Prop where
  ik : ev S.ik = g * (1 - d.vr)
  pos : 0 < g * (1 - d.vr)
  ethk : (1 - d.vr) * ev (S.ik * D0 S.k) = d.ethVr
  alpha : ev S.alpha = d.alpha
  ethAlpha : d.ethAlphaNP = (√2 : ℝ) * ev (D0 S.alpha)
  ethEthAlpha : d.ethEthAlphaNP = (√2 : ℝ) * ((√2 : ℝ) * ev (D1 (D0 S.alpha)))

/-- C30: with the data of the transformation `S` the new fields are those of the law for `S`, with `e = ðu'/k` and the second derivative of the supertranslation. -/
theorem fprime_law {A : Type*} [CommRing A] (ev : A →+* ℂ) (D0 D1 : A → A) (S : Trans A) (g : ℝ) (d : Dir) (h : Represents ev D0 D1 S g d) (i : Nat) (u : ℝ) (U : A) (hU : ev U = u) :
    (∀ n, n ≤ 4 → (fprime g d i u).getD n 0 = mix (ev S.ik) (ev (S.e D0 U)) (psiOf d i) n) ∧
      (fprime g d i u).getD 5 0 = shear (ev S.ik) (ev (D1 (D0 S.alpha))) (d.sigma i) := by
  obtain ⟨h1, h2, h3, h4, h5, h6⟩ := h
  obtain ⟨a, b, -⟩ := fprime_spec g d i u
  have e1 : ((oneOverK g d : ℝ) : ℂ) = ev S.ik := by
    rw [h1, oneOverK]
    push_cast
    ring
  have hvr : ((1 - d.vr : ℝ) : ℂ) ≠ 0 := by exact_mod_cast (right_ne_zero_of_mul h2.ne')
  have hr : ((√2 : ℝ) : ℂ) ≠ 0 := by exact_mod_cast (Real.sqrt_pos.mpr two_pos).ne'
  have hr2 : ((√2 : ℝ) : ℂ) * ((√2 : ℝ) : ℂ) = 2 := by exact_mod_cast Real.mul_self_sqrt (by norm_num : (0 : ℝ) ≤ 2)
  have e2 : ethUprime d u = ev (S.e D0 U) := by
    have h7 : ethkOverK d = ev (S.ik * D0 S.k) := by
      rw [ethkOverK, ← h3, div_eq_iff hvr]
      push_cast
      ring
    have h8 : AbdTransform.ethAlpha d = ev (D0 S.alpha) := by
      rw [AbdTransform.ethAlpha, h5, mul_div_cancel_left₀ _ hr]
    rw [ethUprime, h7, h8, Trans.e, map_sub, map_mul ev (S.ik * D0 S.k), map_sub, hU, h4]
    push_cast
    rfl
  have e3 : AbdTransform.ethEthAlpha d = ev (D1 (D0 S.alpha)) := by
    rw [AbdTransform.ethEthAlpha, h6, ← mul_assoc, ← mul_assoc, mul_assoc 0.5, hr2]
    norm_num
  exact ⟨fun n hn => by rw [a n hn, e1, e2], by rw [b, e1, e3]⟩

/-- C31: applying `AsymptoticBondiData.transform` with `S` and then with `T` (whose derivatives are taken in the frame that `S` leads to) gives, before interpolation, what the composition gives. -/
theorem transform_transform {A : Type*} [CommRing A] (ev : A →+* ℂ) (D : Derivation ℤ A A) (S T : Trans A) (hS : D (D S.ik) = 0) (g1 g2 g12 : ℝ) (d1 d2 d12 : Dir)
    (h1 : Represents ev D D S g1 d1) (h2 : Represents ev (S.eth D 0) (S.eth D 1) T g2 d2) (h12 : Represents ev D D (S.comp T) g12 d12) (i : Nat) (u u' : ℝ) (U : A) (hU : ev U = u) (hU' : ev (S.time U) = u')
    (hfields : ∀ c, c < 6 → (fprime g1 d1 i u).getD c 0 = [d2.psi0 i, d2.psi1 i, d2.psi2 i, d2.psi3 i, d2.psi4 i, d2.sigma i].getD c 0)
    (hsame : d12.psi0 i = d1.psi0 i ∧ d12.psi1 i = d1.psi1 i ∧ d12.psi2 i = d1.psi2 i ∧ d12.psi3 i = d1.psi3 i ∧ d12.psi4 i = d1.psi4 i ∧ d12.sigma i = d1.sigma i) (c : Nat) (hc : c < 6) :
    (fprime g2 d2 i u').getD c 0 = (fprime g12 d12 i u).getD c 0 := by
  obtain ⟨a1, b1⟩ := fprime_law ev D D S g1 d1 h1 i u U hU
  obtain ⟨a2, b2⟩ := fprime_law ev _ _ T g2 d2 h2 i u' (S.time U) hU'
  obtain ⟨a3, b3⟩ := fprime_law ev D D (S.comp T) g12 d12 h12 i u U hU
  obtain ⟨s0, s1, s2, s3, s4, s5⟩ := hsame
  rcases Nat.lt_or_ge c 5 with h5 | h5
  · have hn : c ≤ 4 := by omega
    rw [a2 c hn, a3 c hn, comp_e, map_add, show (S.comp T).ik = S.ik * T.ik from rfl, map_mul, ← mix_mix _ _ _ _ _ _ hn]
    have e1 : ∀ n, n ≤ 4 → psiOf d2 i n = mix (ev S.ik) (ev (S.e D U)) (psiOf d12 i) n := by
      intro n hn
      have e2 : psiOf d12 i = psiOf d1 i := by
        funext m
        match m with
        | 0 | 1 | 2 | 3 | 4 => simp [psiOf, *]
        | _ + 5 => rfl
      rw [e2, ← a1 n hn, hfields n (by omega)]
      interval_cases n <;> rfl
    simp only [mix] at e1 ⊢
    congr 1
    refine sum_congr rfl fun j hj => ?_
    rw [e1 (c + j) (by have := mem_range.mp hj; omega)]
  · have : c = 5 := by omega
    subst this
    have h6 := hfields 5 (by decide)
    rw [b1] at h6
    have h7 : d2.sigma i = shear (ev S.ik) (ev (D (D S.alpha))) (d1.sigma i) := h6.symm
    rw [b2, b3, h7, s5]
    have h8 := comp_shear D S T hS 0
    have h9 : (S.comp T).ik = S.ik * T.ik := rfl
    simp only [shear, h9] at h8 ⊢
    have h10 := congrArg ev h8
    simp only [map_mul, map_sub, map_zero] at h10 ⊢
    linear_combination h10

/-- A case with a boost and a supertranslation: power series, evaluated at 0. -/
example : ∃ (S : Trans (PowerSeries ℂ)) (d : Dir), Represents (PowerSeries.constantCoeff) (PowerSeries.derivative ℂ) (PowerSeries.derivative ℂ) S 2 d ∧
    (PowerSeries.derivative ℂ) ((PowerSeries.derivative ℂ) S.ik) = 0 ∧ d.ethVr ≠ 0 ∧ d.ethEthAlphaNP ≠ 0 := by
  have hr : ((√2 : ℝ) : ℂ) ≠ 0 := by exact_mod_cast (Real.sqrt_pos.mpr two_pos).ne'
  refine ⟨⟨PowerSeries.mk 1, 1 - PowerSeries.X, PowerSeries.X ^ 2, PowerSeries.mk_one_mul_one_sub_eq_one ℂ⟩,
    ⟨1 / 2, 1 / 2, 0, 0, (√2 : ℝ) * ((√2 : ℝ) * 2), fun _ => 0, fun _ => 0, fun _ => 0, fun _ => 0, fun _ => 0, fun _ => 0⟩, ⟨?_, ?_, ?_, ?_, ?_, ?_⟩, ?_, ?_, ?_⟩
  · norm_num
  · norm_num
  · have h : PowerSeries.constantCoeff ((PowerSeries.derivative ℂ) (PowerSeries.mk 1)) = (1 : ℂ) := by
      rw [← PowerSeries.coeff_zero_eq_constantCoeff_apply, PowerSeries.coeff_derivative]
      simp
    rw [map_mul, h]
    norm_num
  · simp
  · simp
  · simp
    exact (map_ofNat _ 2).symm
  · simp
  · norm_num
  · simp [hr]

/-! ## C30: the two implementations agree -/

/-- The data that `WaveformGrid.from_modes` evaluates in the direction `d`.  Its derivatives have a further factor `1/√2`; `h` is twice the conjugate of `σ`. -/
noncomputable def gridOf (g : ℝ) (d : Dir) : GridDir :=
  ⟨kFactor g d, d.alpha, ethAlpha d / (√2 : ℝ), d.ethVr / (√2 : ℝ), 2 * (starRingEnd ℂ) (ethEthAlpha d), ethEthAlpha d⟩

/-- The Weyl components in the convention of SpEC (`map_to_superrest_frame.py` lines 597-601). -/
noncomputable def spec (n : Nat) (z : ℂ) : ℂ := 0.5 * (-(√2 : ℝ)) ^ n * z

theorem gridE_eq (g : ℝ) (d : Dir) (hg : g ≠ 0) (hk : oneOverK g d ≠ 0) (u : ℝ) : gridE g (gridOf g d) u = ethUprime d u / (√2 : ℝ) := by
  have h1 : 1 - d.vr ≠ 0 := right_ne_zero_of_mul hk
  have h2 : ((1 - d.vr : ℝ) : ℂ) ≠ 0 := by exact_mod_cast h1
  have h3 : (g : ℂ) ≠ 0 := by exact_mod_cast hg
  have h4 : ((√2 : ℝ) : ℂ) ≠ 0 := by exact_mod_cast (Real.sqrt_pos.mpr two_pos).ne'
  simp only [gridE, gridOf, ethUprime, ethkOverK, kFactor, oneOverK]
  push_cast at h2 ⊢
  field_simp

/-- The sum of the supplied components for each type. -/
theorem gridValue_psi (g : ℝ) (d : GridDir) (w : Int) (t : ℝ) (F : Nat → ℂ) (other : Int → Option ℂ) (n : Nat) (hn : n ≤ 3) (ho : ∀ m : Nat, n < m → m ≤ 4 → other (m + 1) = some (F m)) :
    gridValue g false ((n : Int) + 1) w d t (F n) other = .ok ((∑ j ∈ range (5 - n), (Nat.choose (4 - n) j : ℂ) * gridE g d t ^ j * F (n + j)) * (d.k : ℂ) ^ w) := by
  have o1 : n < 1 → other 2 = some (F 1) := fun h => ho 1 h (by decide)
  have o2 : n < 2 → other 3 = some (F 2) := fun h => ho 2 h (by decide)
  have o3 : n < 3 → other 4 = some (F 3) := fun h => ho 3 h (by decide)
  have o4 : n < 4 → other 5 = some (F 4) := fun h => ho 4 h (by decide)
  have r1 : pyRange 2 6 = [2, 3, 4, 5] := by decide
  have r2 : pyRange 3 6 = [3, 4, 5] := by decide
  have r3 : pyRange 4 6 = [4, 5] := by decide
  have r4 : pyRange 5 6 = [5] := by decide
  interval_cases n <;> norm_num at o1 o2 o3 o4 <;>
    simp [gridValue, gridMixed, gridSum, ok_bind, Verif.Weights.psi0, Verif.Weights.psi1, Verif.Weights.psi2, Verif.Weights.psi3, Verif.Weights.psi4, Verif.Weights.sigma, Verif.Weights.h, r1, r2, r3, r4, o1, o2, o3, o4,
      pure_eq_ok, sum_range_succ, Nat.choose] <;> (left; ring)

/-- C30: `WaveformGrid.from_modes` and `AsymptoticBondiData.transform` give the same values for `Psi0` to `Psi4`, up to the conversion of the conventions. -/
theorem grid_agrees (g : ℝ) (hg : g ≠ 0) (d : Dir) (hk : oneOverK g d ≠ 0) (i : Nat) (u : ℝ) (other : Int → Option ℂ) (ho : ∀ m : Nat, m ≤ 4 → other (m + 1) = some (spec m (psiOf d i m)))
    (n : Nat) (hn : n ≤ 4) :
    ∃ w, Verif.Weights.conformalWeight (n + 1) true = .ok w ∧
      gridValue g false (n + 1) w (gridOf g d) u (spec n (psiOf d i n)) other = .ok (spec n ((fprime g d i u).getD n 0)) := by
  have h4 : ((√2 : ℝ) : ℂ) ≠ 0 := by exact_mod_cast (Real.sqrt_pos.mpr two_pos).ne'
  have hk' : ((oneOverK g d : ℝ) : ℂ) ≠ 0 := by exact_mod_cast hk
  have hw : Verif.Weights.conformalWeight (n + 1) true = .ok (-3) := by interval_cases n <;> rfl
  have hkw : (((gridOf g d).k : ℝ) : ℂ) ^ (-3 : Int) = ((oneOverK g d : ℝ) : ℂ) ^ 3 := by
    simp only [gridOf, kFactor]
    push_cast
    rw [zpow_neg, one_div, inv_zpow, inv_inv]
    norm_cast
  refine ⟨-3, hw, ?_⟩
  rw [(fprime_spec g d i u).1 n hn]
  rcases Nat.lt_or_ge n 4 with h | h
  · rw [gridValue_psi g (gridOf g d) (-3) u (fun m => spec m (psiOf d i m)) other n (by omega) (fun m _ h => ho m h), hkw, gridE_eq g d hg hk]
    congr 1
    simp only [mix, spec]
    rw [mul_sum, mul_sum, sum_mul]
    refine sum_congr rfl fun j _ => ?_
    rw [div_pow, pow_add, neg_pow (ethUprime d u) j, neg_pow ((√2 : ℝ) : ℂ) j]
    field_simp
  · have : n = 4 := by omega
    subst this
    simp [gridValue, gridMixed, ok_bind, Verif.Weights.psi0, Verif.Weights.psi1, Verif.Weights.psi2, Verif.Weights.psi3, Verif.Weights.sigma, Verif.Weights.h, hkw, mix, spec, pure_eq_ok, psiOf]
    ring

/-- C30: and for the strain, which is `2 σ̄`, and for the shear. -/
theorem grid_agrees_shear (g : ℝ) (d : Dir) (i : Nat) (u : ℝ) (other : Int → Option ℂ) :
    ∃ w w', Verif.Weights.conformalWeight Verif.Weights.h true = .ok w ∧ Verif.Weights.conformalWeight Verif.Weights.sigma true = .ok w' ∧
      gridValue g false Verif.Weights.h w (gridOf g d) u (2 * (starRingEnd ℂ) (d.sigma i)) other = .ok (2 * (starRingEnd ℂ) ((fprime g d i u).getD 5 0)) ∧
      gridValue g false Verif.Weights.sigma w' (gridOf g d) u (d.sigma i) other = .ok ((fprime g d i u).getD 5 0) := by
  have hkw : (((gridOf g d).k : ℝ) : ℂ) ^ (-1 : Int) = ((oneOverK g d : ℝ) : ℂ) := by
    simp only [gridOf, kFactor]
    push_cast
    rw [zpow_neg, one_div, inv_zpow, inv_inv, zpow_one]
  refine ⟨-1, -1, rfl, rfl, ?_, ?_⟩
  · rw [(fprime_spec g d i u).2.1]
    simp only [gridValue, gridMixed, Verif.Weights.h, hkw]
    simp [shear, gridOf, pure_eq_ok, ok_bind]
    ring
  · rw [(fprime_spec g d i u).2.1]
    simp only [gridValue, gridMixed, Verif.Weights.h, Verif.Weights.sigma, hkw]
    simp [shear, gridOf, pure_eq_ok, ok_bind]
    ring

/-- C30: without one of the higher components the transformation of a Weyl component is refused. -/
theorem grid_missing (g : ℝ) (d : GridDir) (w : Int) (t : ℝ) (f : ℂ) (other : Int → Option ℂ) (n : Nat) (hn : n ≤ 3) (m : Nat) (hm : n < m) (hm4 : m ≤ 4) (hmiss : other (m + 1) = none) :
    gridValue g false ((n : Int) + 1) w d t f other = .error .valueError := by
  have hfold : ∀ (l : List Int) (f : ℂ), ((m : Int) + 1) ∈ l → l.foldlM (fun f DT =>
        match other DT with
        | none => (.error .valueError : Py ℂ)
        | some x => .ok (f + (Nat.choose (5 - ((n : Int) + 1)).toNat (5 - DT).toNat : ℂ) * x * gridE g d t ^ (DT - ((n : Int) + 1)).toNat)) f = .error .valueError := by
    intro l
    induction l with
    | nil => intro f h; simp at h
    | cons a l ih =>
      intro f h
      rw [List.foldlM_cons]
      rcases ha : other a with _ | x
      · rfl
      · rcases List.mem_cons.mp h with h | h
        · rw [← h, hmiss] at ha
          cases ha
        · exact ih _ h
  have hin : ((n : Int) + 1) ∈ [Verif.Weights.psi0, Verif.Weights.psi1, Verif.Weights.psi2, Verif.Weights.psi3] := by
    interval_cases n <;> decide
  have h1 : ((n : Int) + 1) ≠ Verif.Weights.h := by simp only [Verif.Weights.h]; omega
  have h2 : ((n : Int) + 1) ≠ Verif.Weights.sigma := by simp only [Verif.Weights.sigma]; omega
  have hs : gridSum g ((n : Int) + 1) d t f other = .error .valueError := hfold _ _ (by rw [mem_pyRange]; simp only [Verif.Weights.psi4]; omega)
  simp only [gridValue, gridMixed, if_neg h1, if_neg h2, if_pos hin, Bool.false_eq_true, if_false, hs]
  rfl

/-! ## C32: aberration -/

/-- The half-angle formula of aberration. -/
theorem cos_thetaOf (beta thetaprm : ℝ) (hb : 0 ≤ beta) (hb1 : beta < 1) (h0 : 0 ≤ thetaprm) (h1 : thetaprm < Real.pi) :
    Real.cos (thetaOf beta thetaprm) = (Real.cos thetaprm + beta) / (1 + beta * Real.cos thetaprm) := by
  have hm : 0 < 1 - beta := by linarith
  have hp : 0 < 1 + beta := by linarith
  have hE : Real.exp (-Real.artanh beta) ^ 2 = (1 - beta) / (1 + beta) := by
    rw [Real.exp_neg, inv_pow, Real.exp_artanh ⟨by linarith, hb1⟩, Real.sq_sqrt (div_pos hp hm).le, inv_div]
  have hc : 0 < Real.cos (thetaprm / 2) := Real.cos_pos_of_mem_Ioo ⟨by linarith [Real.pi_pos], by linarith⟩
  have ht : Real.tan (thetaprm / 2) ^ 2 = (1 - Real.cos (thetaprm / 2) ^ 2) / Real.cos (thetaprm / 2) ^ 2 := by
    rw [Real.tan_eq_sin_div_cos, div_pow, Real.sin_sq]
  have hcc : Real.cos thetaprm = 2 * Real.cos (thetaprm / 2) ^ 2 - 1 := by
    rw [← Real.cos_two_mul]
    ring_nf
  rw [thetaOf, Real.cos_two_mul, Real.cos_sq_arctan, mul_pow, hE, ht, hcc]
  generalize Real.cos (thetaprm / 2) = c at hc hcc ⊢
  have hc1 : -1 ≤ 2 * c ^ 2 - 1 := by nlinarith [sq_nonneg c]
  have hc2 : 2 * c ^ 2 - 1 ≤ 1 := by rw [← hcc]; exact Real.cos_le_one _
  have hden : 0 < 1 + beta * (2 * c ^ 2 - 1) := by nlinarith
  have hden2 : 0 < c ^ 2 * (1 + beta) + (1 - beta) * (1 - c ^ 2) := by nlinarith
  have : 1 + (1 - beta) / (1 + beta) * ((1 - c ^ 2) / c ^ 2) = (1 + beta * (2 * c ^ 2 - 1)) / ((1 + beta) * c ^ 2) := by
    field_simp
    ring
  rw [this]
  field_simp
  ring

/-- Rotation of a vector about an axis at right angles to it. -/
theorem rotateVec_expRotor (n r : Fin 3 → ℝ) (hn : ∑ i, n i ^ 2 = 1) (hnr : ∑ i, n i * r i = 0) (a : ℝ) (i : Fin 3) :
    rotateVec (expRotor n (a / 2)) r i = Real.cos a * r i + Real.sin a * cross n r i := by
  have hc : Real.cos a = Real.cos (a / 2) ^ 2 - Real.sin (a / 2) ^ 2 := by
    rw [← Real.cos_two_mul']
    ring_nf
  have hs : Real.sin a = 2 * Real.sin (a / 2) * Real.cos (a / 2) := by
    rw [← Real.sin_two_mul]
    ring_nf
  rw [hc, hs]
  rw [Fin.sum_univ_three] at hn hnr
  have e0 : (expRotor n (a / 2)).re = Real.cos (a / 2) := rfl
  have e1 : (expRotor n (a / 2)).imI = Real.sin (a / 2) * n 0 := rfl
  have e2 : (expRotor n (a / 2)).imJ = Real.sin (a / 2) * n 1 := rfl
  have e3 : (expRotor n (a / 2)).imK = Real.sin (a / 2) * n 2 := rfl
  have v0 : (vecQuat r).re = 0 := rfl
  have v1 : (vecQuat r).imI = r 0 := rfl
  have v2 : (vecQuat r).imJ = r 1 := rfl
  have v3 : (vecQuat r).imK = r 2 := rfl
  generalize Real.cos (a / 2) = c at *
  generalize Real.sin (a / 2) = s at *
  fin_cases i <;> simp [rotateVec, cross, Quaternion.imI_mul, Quaternion.imJ_mul, Quaternion.imK_mul, Quaternion.re_mul, e0, e1, e2, e3, v0, v1, v2, v3]
  · linear_combination (2 * s ^ 2 * n 0) * hnr - s ^ 2 * r 0 * hn
  · linear_combination (2 * s ^ 2 * n 1) * hnr - s ^ 2 * r 1 * hn
  · linear_combination (2 * s ^ 2 * n 2) * hnr - s ^ 2 * r 2 * hn

theorem vecQuat_rotateVec (R : Quaternion ℝ) (v : Fin 3 → ℝ) : vecQuat (rotateVec R v) = R * vecQuat v * star R := by
  have v0 : (vecQuat v).re = 0 := rfl
  have h : (R * vecQuat v * star R).re = 0 := by
    simp [Quaternion.imI_mul, Quaternion.imJ_mul, Quaternion.imK_mul, Quaternion.re_mul, v0]
    ring
  exact Quaternion.ext _ _ h.symm rfl rfl rfl

/-- The rotors compose as the rotations do. -/
theorem rotateVec_mul (B R : Quaternion ℝ) (v : Fin 3 → ℝ) : rotateVec (B * R) v = rotateVec B (rotateVec R v) := by
  have h : B * R * vecQuat v * star (B * R) = B * vecQuat (rotateVec R v) * star B := by
    rw [vecQuat_rotateVec, star_mul]
    noncomm_ring
  simp only [rotateVec] at h ⊢
  rw [h]

theorem rotateVec_one (v : Fin 3 → ℝ) : rotateVec 1 v = v := by
  funext i
  fin_cases i <;> simp [rotateVec] <;> rfl

/-- C32: the direction `r` in which the original data are evaluated is related to the direction `r'` of the new frame by the aberration formula. -/
theorem aberration (beta : ℝ) (hb : 0 ≤ beta) (hb1 : beta < 1) (vhat rprm : Fin 3 → ℝ) (hv : ∑ i, vhat i ^ 2 = 1) (hr : ∑ i, rprm i ^ 2 = 1) :
    ∑ i, rotateVec (Bprm beta vhat rprm) rprm i ^ 2 = 1 ∧
    ∑ i, vhat i * rotateVec (Bprm beta vhat rprm) rprm i = ((∑ i, vhat i * rprm i) + beta) / (1 + beta * ∑ i, vhat i * rprm i) := by
  set C := ∑ i, vhat i * rprm i with hC
  have hC2 : |C| ≤ 1 := dot_le vhat rprm hr 1 zero_le_one (by rw [hv, one_pow])
  obtain ⟨hCl, hCu⟩ := abs_le.mp hC2
  have hlag : vabs (cross rprm vhat) ^ 2 = 1 - C ^ 2 := by
    rw [vabs, Real.sq_sqrt (by positivity), hC]
    simp only [cross, Fin.sum_univ_three] at hv hr ⊢
    simp
    linear_combination (rprm 0 ^ 2 + rprm 1 ^ 2 + rprm 2 ^ 2) * hv + hr
  have hs0 : 0 ≤ vabs (cross rprm vhat) := Real.sqrt_nonneg _
  rcases hb.lt_or_eq with hb0 | hb0
  · by_cases hs : vabs (cross rprm vhat) > 0
    · have hB : Bprm beta vhat rprm = expRotor (fun i => cross rprm vhat i / vabs (cross rprm vhat)) ((Real.arccos C - thetaOf beta (Real.arccos C)) / 2) := by
        rw [Bprm, if_pos hb0]
        exact if_pos hs
      set s := vabs (cross rprm vhat) with hsdef
      set n : Fin 3 → ℝ := fun i => cross rprm vhat i / s with hn
      set delta := Real.arccos C - thetaOf beta (Real.arccos C) with hdelta
      have hlag' : (rprm 1 * vhat 2 - rprm 2 * vhat 1) ^ 2 + (rprm 2 * vhat 0 - rprm 0 * vhat 2) ^ 2 + (rprm 0 * vhat 1 - rprm 1 * vhat 0) ^ 2 = s ^ 2 := by
        rw [hsdef, vabs, Real.sq_sqrt (by positivity)]
        simp [cross]
      have n0 : n 0 = (rprm 1 * vhat 2 - rprm 2 * vhat 1) / s := by simp [hn, cross]
      have n1 : n 1 = (rprm 2 * vhat 0 - rprm 0 * vhat 2) / s := by simp [hn, cross]
      have n2 : n 2 = (rprm 0 * vhat 1 - rprm 1 * vhat 0) / s := by simp [hn, cross]
      have hn1 : ∑ i, n i ^ 2 = 1 := by
        rw [Fin.sum_univ_three, n0, n1, n2, div_pow, div_pow, div_pow, ← add_div, ← add_div, hlag', div_self (pow_pos hs 2).ne']
      have hnr : ∑ i, n i * rprm i = 0 := by
        rw [Fin.sum_univ_three, n0, n1, n2]
        ring
      have hx : ∑ i, rprm i * cross n rprm i = 0 := by
        simp [Fin.sum_univ_three, cross]
        ring
      have hxx : ∑ i, cross n rprm i ^ 2 = 1 := by
        simp only [Fin.sum_univ_three] at hn1 hnr hr ⊢
        simp [cross]
        linear_combination (rprm 0 ^ 2 + rprm 1 ^ 2 + rprm 2 ^ 2) * hn1 + hr - (n 0 * rprm 0 + n 1 * rprm 1 + n 2 * rprm 2) * hnr
      have hvx : ∑ i, vhat i * cross n rprm i = s := by
        have h1 : s * ∑ i, vhat i * cross n rprm i = s ^ 2 := by
          rw [← hlag']
          simp only [Fin.sum_univ_three]
          simp [cross, n0, n1, n2]
          field_simp
          ring
        have h2 : s * ∑ i, vhat i * cross n rprm i = s * s := by rw [h1, sq]
        exact mul_left_cancel₀ hs.ne' h2
      rw [hB]
      simp only [rotateVec_expRotor n rprm hn1 hnr delta]
      constructor
      · have : ∑ i, (Real.cos delta * rprm i + Real.sin delta * cross n rprm i) ^ 2 =
            Real.cos delta ^ 2 * (∑ i, rprm i ^ 2) + Real.sin delta ^ 2 * (∑ i, cross n rprm i ^ 2) + 2 * Real.cos delta * Real.sin delta * ∑ i, rprm i * cross n rprm i := by
          simp only [Fin.sum_univ_three]
          ring
        rw [this, hr, hxx, hx]
        linear_combination Real.cos_sq_add_sin_sq delta
      · have h1 : ∑ i, vhat i * (Real.cos delta * rprm i + Real.sin delta * cross n rprm i) = Real.cos delta * C + Real.sin delta * s := by
          rw [← hvx, hC]
          simp only [Fin.sum_univ_three]
          ring
        have hcos : Real.cos (Real.arccos C) = C := Real.cos_arccos hCl hCu
        have hsin : Real.sin (Real.arccos C) = s := by rw [Real.sin_arccos, ← hlag, Real.sqrt_sq hs0]
        have hpi : Real.arccos C < Real.pi := by
          rcases (Real.arccos_le_pi C).lt_or_eq with h | h
          · exact h
          · rw [h, Real.sin_pi] at hsin
            exact absurd hsin hs.ne
        have h2 : Real.cos delta * C + Real.sin delta * s = Real.cos (thetaOf beta (Real.arccos C)) := by
          have h3 : thetaOf beta (Real.arccos C) = Real.arccos C - delta := by linarith
          have h4 := Real.cos_sub (Real.arccos C) delta
          rw [hcos, hsin, ← h3] at h4
          rw [h4]
          ring
        rw [h1, h2, cos_thetaOf beta _ hb hb1 (Real.arccos_nonneg C) hpi, hcos]
    · have hz : vabs (cross rprm vhat) = 0 := le_antisymm (not_lt.mp hs) hs0
      have hB : Bprm beta vhat rprm = 1 := by
        rw [Bprm, if_pos hb0]
        exact if_neg hs
      rw [hB, rotateVec_one]
      refine ⟨hr, ?_⟩
      rw [← hC]
      have hsq : C ^ 2 = 1 := by
        rw [hz] at hlag
        linarith
      have hden : 1 + beta * C ≠ 0 := by nlinarith
      rw [eq_div_iff hden]
      linear_combination beta * hsq
  · have hB : Bprm beta vhat rprm = 1 := by
      rw [Bprm, if_neg (by rw [← hb0]; exact lt_irrefl _)]
    rw [hB, rotateVec_one, ← hC, ← hb0]
    exact ⟨hr, by simp⟩

/-- C32: in terms of the directions of the new frame the conformal factor is `γ(1 + v·r')`: the inverse of the factor of the boost back. -/
theorem conformal_factor (beta : ℝ) (hb : 0 ≤ beta) (hb1 : beta < 1) (vhat rprm : Fin 3 → ℝ) (hv : ∑ i, vhat i ^ 2 = 1) (hr : ∑ i, rprm i ^ 2 = 1) (d d' : Dir)
    (hd : d.vr = beta * ∑ i, vhat i * rotateVec (Bprm beta vhat rprm) rprm i) (hd' : d'.vr = beta * ∑ i, -vhat i * rprm i) :
    kFactor (gamma beta) d * kFactor (gamma beta) d' = 1 := by
  have hC2 : |∑ i, vhat i * rprm i| ≤ 1 := dot_le vhat rprm hr 1 zero_le_one (by rw [hv, one_pow])
  obtain ⟨hCl, hCu⟩ := abs_le.mp hC2
  have h1 : ∑ i, -vhat i * rprm i = -∑ i, vhat i * rprm i := by rw [← sum_neg_distrib]; exact sum_congr rfl fun i _ => by ring
  rw [(aberration beta hb hb1 vhat rprm hv hr).2] at hd
  rw [h1] at hd'
  generalize ∑ i, vhat i * rprm i = C at *
  have hden : 0 < 1 + beta * C := by nlinarith
  have hpos : 0 < 1 - beta ^ 2 := by nlinarith
  have hs : 0 < √(1 - beta ^ 2) := Real.sqrt_pos.mpr hpos
  have hsq : √(1 - beta ^ 2) ^ 2 = 1 - beta ^ 2 := Real.sq_sqrt hpos.le
  have e1 : oneOverK (gamma beta) d = √(1 - beta ^ 2) / (1 + beta * C) := by
    rw [oneOverK, gamma, hd]
    field_simp
    rw [hsq]
    ring
  have e2 : oneOverK (gamma beta) d' = (1 + beta * C) / √(1 - beta ^ 2) := by
    rw [oneOverK, gamma, hd']
    field_simp
    ring
  rw [kFactor, kFactor, e1, e2]
  field_simp

/-- A boost along `z` seen at right angles. -/
example : ∑ i, (![0, 0, 1] : Fin 3 → ℝ) i ^ 2 = 1 ∧ ∑ i, (![1, 0, 0] : Fin 3 → ℝ) i ^ 2 = 1 ∧ vabs (cross ![1, 0, 0] ![0, 0, 1]) > 0 := by
  simp [Fin.sum_univ_three, cross, vabs]

end Verif.Props.AbdTransform
