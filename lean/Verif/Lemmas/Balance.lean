import Verif.Spec.Balance
import Verif.Lemmas.SphereParts
import Verif.Lemmas.WignerConj
import Verif.Props.Charges
import Verif.Props.AngMomIntegral

/-!
# Integrals over the sphere for the balance of charges and fluxes
-/

namespace Verif.Balance
open Verif.GridMultiply Verif.Spec.Sphere Verif.Spec.SphereOps Verif.Spec.Boost Verif.Spec.Balance Verif.SphereParts Verif.Props.SphereOps Verif.Charges Verif.Spec.Charges ComplexConjugate

/-! ## Linearity of the integral -/

/-- Continuous in the angles. -/
def C (F : ℝ → ℝ → ℂ) : Prop := Continuous fun p : ℝ × ℝ => F p.1 p.2

theorem C.mul {F G : ℝ → ℝ → ℂ} (hF : C F) (hG : C G) : C fun θ φ => F θ φ * G θ φ := Continuous.mul hF hG
theorem C.add {F G : ℝ → ℝ → ℂ} (hF : C F) (hG : C G) : C fun θ φ => F θ φ + G θ φ := Continuous.add hF hG
theorem C.const {F : ℝ → ℝ → ℂ} (k : ℂ) (hF : C F) : C fun θ φ => k * F θ φ := Continuous.mul continuous_const hF
theorem C.conj {F : ℝ → ℝ → ℂ} (hF : C F) : C fun θ φ => conj (F θ φ) := Complex.continuous_conj.comp hF
theorem C.field (s a b : Int) (f : Modes) : C (field s a b f) := field_cont s a b f
theorem C.sum {ι : Type} {S : Finset ι} {F : ι → ℝ → ℝ → ℂ} (hF : ∀ i ∈ S, C (F i)) : C (fun θ φ => ∑ i ∈ S, F i θ φ) := continuous_finsetSum S hF

theorem C.inner {F : ℝ → ℝ → ℂ} (hF : C F) (θ : ℝ) : Continuous fun φ => F θ φ * (Real.sin θ : ℂ) := by
  have hF' : Continuous fun p : ℝ × ℝ => F p.1 p.2 := hF
  have h : Continuous fun φ : ℝ => F θ φ := hF'.comp (by fun_prop : Continuous fun φ : ℝ => (θ, φ))
  exact h.mul continuous_const

theorem C.outer {F : ℝ → ℝ → ℂ} (hF : C F) : Continuous fun θ => ∫ φ in (0 : ℝ)..(2 * Real.pi), F θ φ * (Real.sin θ : ℂ) := by
  apply intervalIntegral.continuous_parametric_intervalIntegral_of_continuous'
  have hc : Continuous (fun p : ℝ × ℝ => (Real.sin p.1 : ℂ)) := by fun_prop
  exact Continuous.mul hF hc

theorem solid_add {F G : ℝ → ℝ → ℂ} (hF : C F) (hG : C G) : solid (fun θ φ => F θ φ + G θ φ) = solid F + solid G := by
  unfold solid
  rw [← intervalIntegral.integral_add (hF.outer.intervalIntegrable _ _) (hG.outer.intervalIntegrable _ _)]
  congr 1
  funext θ
  rw [← intervalIntegral.integral_add ((hF.inner θ).intervalIntegrable _ _) ((hG.inner θ).intervalIntegrable _ _)]
  congr 1
  funext φ
  ring

theorem solid_const (k : ℂ) (F : ℝ → ℝ → ℂ) : solid (fun θ φ => k * F θ φ) = k * solid F := by
  unfold solid
  rw [← intervalIntegral.integral_const_mul]
  congr 1
  funext θ
  rw [← intervalIntegral.integral_const_mul]
  congr 1
  funext φ
  ring

theorem solid_conj {F : ℝ → ℝ → ℂ} (hF : C F) : solid (fun θ φ => conj (F θ φ)) = conj (solid F) := by
  have h : ∀ (g : ℝ → ℂ) (x y : ℝ), Continuous g → ∫ t in x..y, conj (g t) = conj (∫ t in x..y, g t) := by
    intro g x y hg
    exact Complex.conjCLE.toContinuousLinearMap.intervalIntegral_comp_comm (hg.intervalIntegrable x y)
  unfold solid
  rw [← h _ _ _ hF.outer]
  congr 1
  funext θ
  rw [← h _ _ _ (hF.inner θ)]
  congr 1
  funext φ
  rw [map_mul, Complex.conj_ofReal]

theorem solid_sum {ι : Type} [DecidableEq ι] (S : Finset ι) (F : ι → ℝ → ℝ → ℂ) (hF : ∀ i ∈ S, C (F i)) : solid (fun θ φ => ∑ i ∈ S, F i θ φ) = ∑ i ∈ S, solid (F i) := by
  induction S using Finset.induction_on with
  | empty => simp [solid]
  | insert i S hi ih =>
    simp only [Finset.sum_insert hi]
    rw [solid_add (hF i (Finset.mem_insert_self i S)) (C.sum fun j hj => hF j (Finset.mem_insert_of_mem hj)), ih fun j hj => hF j (Finset.mem_insert_of_mem hj)]

/-! ## Conjugates -/

theorem field_conj (s a b : Int) (f : Modes) (θ φ : ℝ) : conj (field s a b f θ φ) = field (-s) a b (bar s f) θ φ := by
  unfold field
  rw [map_sum]
  refine Finset.sum_congr rfl fun ell h1 => ?_
  rw [map_sum]
  refine Finset.sum_bij (fun m _ => -m) ?_ ?_ ?_ ?_
  · intro m hm
    rw [Finset.mem_Icc] at hm ⊢
    omega
  · intro a _ b _ h
    omega
  · intro b hb
    rw [Finset.mem_Icc] at hb
    exact ⟨-b, Finset.mem_Icc.mpr (by omega), by omega⟩
  · intro m hm
    rw [Finset.mem_Icc] at hm
    rw [map_mul, Y_conj s ell m _ (abs_le.mpr hm)]
    unfold Charges.bar
    rw [neg_neg]
    have : ((-1 : ℂ)) ^ (s + m).natAbs = (-1) ^ (s + -m).natAbs := by
      rcases Nat.even_or_odd (s + m).natAbs with h | h
      · have h' : Even (s + -m).natAbs := by
          rw [Nat.even_iff] at h ⊢
          omega
        rw [h.neg_one_pow, h'.neg_one_pow]
      · have h' : Odd (s + -m).natAbs := by
          rw [Nat.odd_iff] at h ⊢
          omega
        rw [h.neg_one_pow, h'.neg_one_pow]
    rw [this]
    ring

theorem sign_succ (s m : Int) : ((-1 : ℂ)) ^ (s + 1 + m).natAbs = -(-1) ^ (s + m).natAbs := by
  rcases Nat.even_or_odd (s + m).natAbs with h | h
  · have h' : Odd (s + 1 + m).natAbs := by
      rw [Nat.even_iff] at h
      rw [Nat.odd_iff]
      omega
    rw [h.neg_one_pow, h'.neg_one_pow]
  · have h' : Even (s + 1 + m).natAbs := by
      rw [Nat.odd_iff] at h
      rw [Nat.even_iff]
      omega
    rw [h.neg_one_pow, h'.neg_one_pow, neg_neg]

/-- The conjugate of `ð F` is `ð̄` of the conjugate. -/
theorem bar_eth (s : Int) (f : Modes) : bar (s + 1) (eth s f) = ethbar (-s) (bar s f) := by
  funext ell m
  unfold bar eth ethbar
  rw [map_mul, Complex.conj_ofReal, sign_succ]
  push_cast
  rw [show ((ell : ℝ) + -s) * (ell - -s + 1) = (ell - s) * (ell + s + 1) by ring]
  ring

theorem conj_eth (s a b : Int) (f : Modes) (θ φ : ℝ) : conj (field (s + 1) a b (eth s f) θ φ) = field (-(s + 1)) a b (ethbar (-s) (bar s f)) θ φ := by
  rw [field_conj, bar_eth]

theorem ghp (s : Int) (f : Modes) : ethGHP s f = fun ell m => ((1 / √2 : ℝ) : ℂ) * eth s f ell m := by
  funext ell m
  unfold ethGHP eth
  rw [← mul_assoc, ← Complex.ofReal_mul]
  congr 2
  rw [show (((ell - s) * (ell + s + 1) : Int) : ℝ) / 2 = ((ell : ℝ) - s) * (ell + s + 1) / 2 by push_cast; ring, Real.sqrt_div' _ (by norm_num)]
  ring

/-! ## Charge vectors as integrals -/

/-- The component of the modes with `ell = 1` along `chi`. -/
noncomputable def pair (i : Fin 3) (f : Modes) : ℂ := conj (chi i 1 (-1)) * f 1 (-1) + conj (chi i 1 0) * f 1 0 + conj (chi i 1 1) * f 1 1

theorem sqrt6 : √(2 * Real.pi / 3) / (4 * Real.pi) = 1 / √6 / √(4 * Real.pi) := by
  have h := Real.pi_pos
  rw [div_div, ← Real.sqrt_mul (by norm_num), div_eq_div_iff (by positivity) (by positivity), ← Real.sqrt_mul (by positivity),
    show 2 * Real.pi / 3 * (6 * (4 * Real.pi)) = (4 * Real.pi) ^ 2 by ring, Real.sqrt_sq (by positivity)]
  ring

theorem sqrt3 : √(4 * Real.pi / 3) / (4 * Real.pi) = 1 / √3 / √(4 * Real.pi) := by
  have h := Real.pi_pos
  rw [div_div, ← Real.sqrt_mul (by norm_num), div_eq_div_iff (by positivity) (by positivity), ← Real.sqrt_mul (by positivity),
    show 4 * Real.pi / 3 * (3 * (4 * Real.pi)) = (4 * Real.pi) ^ 2 by ring, Real.sqrt_sq (by positivity)]
  ring

/-- The vector of an aspect in terms of the modes of the unit vector. -/
theorem vec_chi (f : Modes) (i : Fin 3) : vector f i.succ = (pair i f).re / (4 * Real.pi) := by
  obtain ⟨-, h1, h2, h3⟩ := Verif.Props.Charges.vector_eq f
  obtain ⟨a1, a2, a3, a4, a5, a6, a7, a8, a9⟩ := Verif.Props.BoostFlux.chi_values
  have r6 := sqrt6
  have r3 := sqrt3
  unfold pair
  fin_cases i
  · show vector f 1 = (conj (chi 0 1 (-1)) * f 1 (-1) + conj (chi 0 1 0) * f 1 0 + conj (chi 0 1 1) * f 1 1).re / (4 * Real.pi)
    rw [h1, a1, a2, a3]
    simp only [map_neg, map_zero, Complex.conj_ofReal, Complex.add_re, Complex.mul_re, Complex.neg_re, Complex.neg_im, Complex.ofReal_re, Complex.ofReal_im, Complex.zero_re, Complex.zero_im]
    linear_combination (-(f 1 (-1)).re + (f 1 1).re) * r6
  · show vector f 2 = (conj (chi 1 1 (-1)) * f 1 (-1) + conj (chi 1 1 0) * f 1 0 + conj (chi 1 1 1) * f 1 1).re / (4 * Real.pi)
    rw [h2, a4, a5, a6]
    simp only [map_mul, map_zero, Complex.conj_ofReal, Complex.conj_I, Complex.add_re, Complex.mul_re, Complex.mul_im, Complex.neg_re, Complex.neg_im, Complex.ofReal_re, Complex.ofReal_im, Complex.zero_re, Complex.zero_im, Complex.I_re, Complex.I_im]
    linear_combination (-(f 1 (-1)).im - (f 1 1).im) * r6
  · show vector f 3 = (conj (chi 2 1 (-1)) * f 1 (-1) + conj (chi 2 1 0) * f 1 0 + conj (chi 2 1 1) * f 1 1).re / (4 * Real.pi)
    rw [h3, a7, a8, a9]
    simp only [map_zero, Complex.conj_ofReal, Complex.add_re, Complex.mul_re, Complex.ofReal_re, Complex.ofReal_im, Complex.zero_re, Complex.zero_im]
    linear_combination (-(f 1 0).re) * r3

theorem vec_zero (f : Modes) : vector f 0 = (f 0 0).re / √(4 * Real.pi) := (Verif.Props.Charges.vector_eq f).1

theorem Y_C (s ell m : Int) (h1 : -ell ≤ m) (h2 : m ≤ ell) : C fun θ φ => Y s ell m (rotor θ φ) := Verif.Sphere.Y_cont s ell m h1 h2

/-- The component of a function `A` along `chi` is an integral. -/
theorem three {s : Int} {A : ℝ → ℝ → ℂ} (hA : C A) (c f : Modes) (hf : ∀ m, |m| ≤ 1 → f 1 m = solid fun θ φ => conj (Y s 1 m (rotor θ φ)) * A θ φ) :
    conj (c 1 (-1)) * f 1 (-1) + conj (c 1 0) * f 1 0 + conj (c 1 1) * f 1 1 = solid fun θ φ => conj (field s 1 1 c θ φ) * A θ φ := by
  rw [hf (-1) (by simp), hf 0 (by simp), hf 1 (by simp)]
  have k : ∀ m : Int, -1 ≤ m → m ≤ 1 → C fun θ φ => conj (Y s 1 m (rotor θ φ)) * A θ φ := fun m h1 h2 => (Y_C s 1 m h1 h2).conj.mul hA
  rw [← solid_const, ← solid_const, ← solid_const, ← solid_add ((k (-1) (by norm_num) (by norm_num)).const _) ((k 0 (by norm_num) (by norm_num)).const _),
    ← solid_add (((k (-1) (by norm_num) (by norm_num)).const _).add ((k 0 (by norm_num) (by norm_num)).const _)) ((k 1 (by norm_num) (by norm_num)).const _)]
  congr 1
  funext θ φ
  rw [Verif.Props.FluxIntegral.field_fieldR, Verif.Props.BoostFlux.fieldR_one]
  simp only [map_add, map_mul]
  ring

theorem proj0 {A : ℝ → ℝ → ℂ} (hA : C A) (i : Fin 3) (f : Modes) (hf : ∀ m, |m| ≤ 1 → f 1 m = solid fun θ φ => conj (Y 0 1 m (rotor θ φ)) * A θ φ) :
    pair i f = solid fun θ φ => field 0 1 1 (chi i) θ φ * A θ φ := by
  unfold pair
  rw [three hA (chi i) f hf]
  congr 1
  funext θ φ
  rw [Verif.Props.FluxIntegral.field_fieldR, (Verif.Props.BoostFlux.chi_conj i _).1]

theorem proj1 {A : ℝ → ℝ → ℂ} (hA : C A) (i : Fin 3) (f : Modes) (hf : ∀ m, |m| ≤ 1 → f 1 m = solid fun θ φ => conj (Y 1 1 m (rotor θ φ)) * A θ φ) :
    pair i f = ((1 / √2 : ℝ) : ℂ) * solid fun θ φ => field (-1) 1 1 (ethbar 0 (chi i)) θ φ * A θ φ := by
  have h := three hA (eth 0 (chi i)) f hf
  have e : (fun θ φ => conj (field 1 1 1 (eth 0 (chi i)) θ φ) * A θ φ) = fun θ φ => field (-1) 1 1 (ethbar 0 (chi i)) θ φ * A θ φ := by
    funext θ φ
    rw [Verif.Props.FluxIntegral.field_fieldR, (Verif.Props.BoostFlux.chi_conj i _).2]
    rfl
  rw [e] at h
  rw [← h]
  simp only [Verif.Props.BoostFlux.eth_one, map_mul, Complex.conj_ofReal]
  unfold pair
  have h2 : ((1 / √2 : ℝ) : ℂ) * ((√2 : ℝ) : ℂ) = 1 := by
    rw [← Complex.ofReal_mul, one_div_mul_cancel (by positivity), Complex.ofReal_one]
  linear_combination (-(conj (chi i 1 (-1)) * f 1 (-1) + conj (chi i 1 0) * f 1 0 + conj (chi i 1 1) * f 1 1)) * h2

/-! ## Products -/

/-- The modes of a product are bilinear. -/
theorem bilinear (s t r b ell m : Int) (h1 : -ell ≤ m) (h2 : m ≤ ell) (f g : Modes) :
    (solid fun θ φ => conj (Y r ell m (rotor θ φ)) * (field s 0 b f θ φ * field t 0 b g θ φ)) =
      ∑ l1 ∈ Finset.Icc 0 b, ∑ m1 ∈ Finset.Icc (-l1) l1, ∑ l2 ∈ Finset.Icc 0 b, ∑ m2 ∈ Finset.Icc (-l2) l2,
        f l1 m1 * g l2 m2 * solid fun θ φ => conj (Y r ell m (rotor θ φ)) * (Y s l1 m1 (rotor θ φ) * Y t l2 m2 (rotor θ φ)) := by
  have e : (fun θ φ => conj (Y r ell m (rotor θ φ)) * (field s 0 b f θ φ * field t 0 b g θ φ)) = fun θ φ =>
      ∑ l1 ∈ Finset.Icc 0 b, ∑ m1 ∈ Finset.Icc (-l1) l1, ∑ l2 ∈ Finset.Icc 0 b, ∑ m2 ∈ Finset.Icc (-l2) l2,
        f l1 m1 * g l2 m2 * (conj (Y r ell m (rotor θ φ)) * (Y s l1 m1 (rotor θ φ) * Y t l2 m2 (rotor θ φ))) := by
    funext θ φ
    unfold field
    rw [Finset.sum_mul, Finset.mul_sum]
    refine Finset.sum_congr rfl fun l1 _ => ?_
    rw [Finset.sum_mul, Finset.mul_sum]
    refine Finset.sum_congr rfl fun m1 _ => ?_
    rw [Finset.mul_sum, Finset.mul_sum]
    refine Finset.sum_congr rfl fun l2 _ => ?_
    rw [Finset.mul_sum, Finset.mul_sum]
    refine Finset.sum_congr rfl fun m2 _ => ?_
    ring
  have c : ∀ l1 m1 l2 m2, m1 ∈ Finset.Icc (-l1) l1 → m2 ∈ Finset.Icc (-l2) l2 → C fun θ φ => f l1 m1 * g l2 m2 * (conj (Y r ell m (rotor θ φ)) * (Y s l1 m1 (rotor θ φ) * Y t l2 m2 (rotor θ φ))) := by
    intro l1 m1 l2 m2 hm1 hm2
    rw [Finset.mem_Icc] at hm1 hm2
    exact C.const _ ((Y_C r ell m h1 h2).conj.mul ((Y_C s l1 m1 hm1.1 hm1.2).mul (Y_C t l2 m2 hm2.1 hm2.2)))
  rw [e, solid_sum _ _ fun l1 _ => C.sum fun m1 hm1 => C.sum fun l2 _ => C.sum fun m2 hm2 => c l1 m1 l2 m2 hm1 hm2]
  refine Finset.sum_congr rfl fun l1 _ => ?_
  rw [solid_sum _ _ fun m1 hm1 => C.sum fun l2 _ => C.sum fun m2 hm2 => c l1 m1 l2 m2 hm1 hm2]
  refine Finset.sum_congr rfl fun m1 hm1 => ?_
  rw [solid_sum _ _ fun l2 _ => C.sum fun m2 hm2 => c l1 m1 l2 m2 hm1 hm2]
  refine Finset.sum_congr rfl fun l2 _ => ?_
  rw [solid_sum _ _ fun m2 hm2 => c l1 m1 l2 m2 hm1 hm2]
  refine Finset.sum_congr rfl fun m2 _ => ?_
  rw [solid_const]

/-- The derivative of a product with respect to time. -/
theorem product_deriv {b : Int} {mul : Int → Int → Modes → Modes → Modes} (hmul : IsProduct b mul) (s t : Int) (f g f' g' : ℝ → Modes) (u : ℝ)
    (hf : ∀ ell m, HasDerivAt (fun u => f u ell m) (f' u ell m) u) (hg : ∀ ell m, HasDerivAt (fun u => g u ell m) (g' u ell m) u) (ell m : Int) (hs : |s + t| ≤ ell) (hm : |m| ≤ ell) :
    HasDerivAt (fun u => mul s t (f u) (g u) ell m) (mul s t (f' u) (g u) ell m + mul s t (f u) (g' u) ell m) u := by
  have hm' := abs_le.1 hm
  have e : ∀ f g, mul s t f g ell m = _ := fun f g => (hmul s t f g ell m hs hm).trans (bilinear s t (s + t) b ell m hm'.1 hm'.2 f g)
  simp only [e]
  rw [← Finset.sum_add_distrib]
  refine HasDerivAt.fun_sum fun l1 _ => ?_
  rw [← Finset.sum_add_distrib]
  refine HasDerivAt.fun_sum fun m1 _ => ?_
  rw [← Finset.sum_add_distrib]
  refine HasDerivAt.fun_sum fun l2 _ => ?_
  rw [← Finset.sum_add_distrib]
  refine HasDerivAt.fun_sum fun m2 _ => ?_
  rw [← add_mul]
  exact ((hf l1 m1).mul (hg l2 m2)).mul_const _

theorem product_const {b : Int} {mul : Int → Int → Modes → Modes → Modes} (hmul : IsProduct b mul) (s t : Int) (f g : Modes) (k : ℂ) (ell m : Int) (hs : |s + t| ≤ ell) (hm : |m| ≤ ell) :
    mul s t f (fun ell m => k * g ell m) ell m = k * mul s t f g ell m := by
  rw [hmul s t _ _ ell m hs hm, hmul s t _ _ ell m hs hm, ← solid_const]
  congr 1
  funext θ φ
  rw [field_const]
  ring

end Verif.Balance
