import Verif.Lemmas.Supertranslation
import Verif.Spec.Supertranslation

/-!
# Integrals over the sphere for translations
-/

namespace Verif.Supertranslation
open Verif.GridMultiply Verif.Spec.Sphere Verif.Spec.Boost Verif.Balance Verif.SphereParts Verif.Props.SphereOps Verif.Charges Verif.Triple Verif.Spec.Supertranslation ComplexConjugate

/-- The modes of a function. -/
theorem mode_of (s b ell m : Int) (f : Modes) (hs : |s| ≤ ell) (hb : ell ≤ b) (hm : |m| ≤ ell) : (solid fun θ φ => conj (Y s ell m (rotor θ φ)) * field s 0 b f θ φ) = f ell m := by
  have hm' := abs_le.1 hm
  have h0 : 0 ≤ ell := (abs_nonneg s).trans hs
  have e : (fun θ φ => conj (Y s ell m (rotor θ φ)) * field s 0 b f θ φ) = fun θ φ =>
      ∑ l ∈ Finset.Icc 0 b, ∑ k ∈ Finset.Icc (-l) l, f l k * (conj (Y s ell m (rotor θ φ)) * Y s l k (rotor θ φ)) := by
    funext θ φ
    unfold field
    rw [Finset.mul_sum]
    refine Finset.sum_congr rfl fun l _ => ?_
    rw [Finset.mul_sum]
    refine Finset.sum_congr rfl fun k _ => ?_
    ring
  have c : ∀ l k, k ∈ Finset.Icc (-l) l → C fun θ φ => f l k * (conj (Y s ell m (rotor θ φ)) * Y s l k (rotor θ φ)) := by
    intro l k hk
    rw [Finset.mem_Icc] at hk
    exact C.const _ ((Y_C s ell m hm'.1 hm'.2).conj.mul (Y_C s l k hk.1 hk.2))
  rw [e, solid_sum _ _ fun l _ => C.sum fun k hk => c l k hk]
  have e2 : ∀ l ∈ Finset.Icc 0 b, (solid fun θ φ => ∑ k ∈ Finset.Icc (-l) l, f l k * (conj (Y s ell m (rotor θ φ)) * Y s l k (rotor θ φ))) = if l = ell then f ell m else 0 := by
    intro l _
    rw [solid_sum _ _ fun k hk => c l k hk]
    have e3 : ∀ k ∈ Finset.Icc (-l) l, (solid fun θ φ => f l k * (conj (Y s ell m (rotor θ φ)) * Y s l k (rotor θ φ))) = if l = ell ∧ k = m then f ell m else 0 := by
      intro k hk
      rw [Finset.mem_Icc] at hk
      rw [solid_const, Verif.Props.FluxIntegral.harmonics_orthonormal s ell m l k hs hm'.1 hm'.2 hk.1 hk.2]
      by_cases h : ell = l ∧ m = k
      · obtain ⟨rfl, rfl⟩ := h
        simp
      · rw [if_neg h, if_neg (by tauto), mul_zero]
    rw [Finset.sum_congr rfl e3]
    by_cases hl : l = ell
    · subst hl
      simp [hm'.1, hm'.2]
    · simp [hl]
  rw [Finset.sum_congr rfl e2, Finset.sum_ite_eq' (Finset.Icc 0 b) ell, if_pos (Finset.mem_Icc.2 ⟨h0, hb⟩)]

theorem support {s b l : Int} {f : Modes} (h0 : 0 ≤ l) (hb : l ≤ b) (h : ∀ ell m, ell ≠ l → f ell m = 0) : field s 0 b f = field s l l f := by
  funext θ φ
  unfold field
  symm
  refine Finset.sum_subset (fun x hx => ?_) fun x _ hx' => ?_
  · rw [Finset.mem_Icc] at hx ⊢
    omega
  · refine Finset.sum_eq_zero fun m _ => ?_
    rw [Finset.mem_Icc] at hx'
    rw [h x m (by omega), zero_mul]

theorem field_zero (s a b : Int) (θ φ : ℝ) : field s a b (fun _ _ => 0) θ φ = 0 := by simp [field]

/-- The modes of a constant. -/
noncomputable def constant (k : ℝ) : Modes := fun ell _ => if ell = 0 then ((k * √(4 * Real.pi) : ℝ) : ℂ) else 0

theorem constant_field {b : Int} (hb : 0 ≤ b) (k : ℝ) (θ φ : ℝ) : field 0 0 b (constant k) θ φ = k := by
  rw [support (l := 0) le_rfl hb fun ell m h => by simp [constant, h]]
  unfold field constant
  rw [Finset.Icc_self, Finset.sum_singleton, neg_zero, Finset.Icc_self, Finset.sum_singleton, Verif.Sphere.Y000, if_pos rfl, ← Complex.ofReal_mul]
  congr 1
  have := Real.pi_pos
  field_simp

theorem constant_eth (s : Int) {b : Int} (k : ℝ) (θ φ : ℝ) : field s 0 b (eth 0 (constant k)) θ φ = 0 := by
  have : eth 0 (constant k) = fun _ _ => 0 := by
    funext ell m
    unfold eth constant
    split_ifs with h
    · simp [h]
    · simp
  rw [this, field_zero]

/-- The function `τ + a·n`. -/
noncomputable def trans (τ : ℝ) (a : Fin 3 → ℝ) : Modes := fun ell m => constant τ ell m + ((a 0 : ℂ) * chi 0 ell m + ((a 1 : ℂ) * chi 1 ell m + (a 2 : ℂ) * chi 2 ell m))

theorem chi_ne (i : Fin 3) (ell m : Int) (h : ell ≠ 1) : chi i ell m = 0 := by unfold chi; rw [if_pos h]

theorem eth_add (s : Int) (f g : Modes) : eth s (fun ell m => f ell m + g ell m) = fun ell m => eth s f ell m + eth s g ell m := by
  funext ell m; unfold eth; ring
theorem eth_smul (s : Int) (k : ℂ) (f : Modes) : eth s (fun ell m => k * f ell m) = fun ell m => k * eth s f ell m := by
  funext ell m; unfold eth; ring
theorem ethbar_add (s : Int) (f g : Modes) : ethbar s (fun ell m => f ell m + g ell m) = fun ell m => ethbar s f ell m + ethbar s g ell m := by
  funext ell m; unfold ethbar; ring
theorem ethbar_smul (s : Int) (k : ℂ) (f : Modes) : ethbar s (fun ell m => k * f ell m) = fun ell m => k * ethbar s f ell m := by
  funext ell m; unfold ethbar; ring

theorem trans_field {b : Int} (hb : 1 ≤ b) (τ : ℝ) (a : Fin 3 → ℝ) (θ φ : ℝ) : field 0 0 b (trans τ a) θ φ = τ + (a 0 * nHat 0 θ φ + (a 1 * nHat 1 θ φ + a 2 * nHat 2 θ φ)) := by
  unfold trans
  rw [Verif.Props.AngMomIntegral.field_sum, Verif.Props.AngMomIntegral.field_sum, Verif.Props.AngMomIntegral.field_sum, constant_field (by omega), field_const, field_const, field_const,
    support (l := 1) (by norm_num) hb (chi_ne 0), support (l := 1) (by norm_num) hb (chi_ne 1), support (l := 1) (by norm_num) hb (chi_ne 2),
    Verif.Props.BoostFlux.chi_field, Verif.Props.BoostFlux.chi_field, Verif.Props.BoostFlux.chi_field]

theorem trans_eth {b : Int} (hb : 1 ≤ b) (τ : ℝ) (a : Fin 3 → ℝ) (θ φ : ℝ) (hθ : Real.sin θ ≠ 0) :
    field 1 0 b (eth 0 (trans τ a)) θ φ = a 0 * ethN 0 θ φ + (a 1 * ethN 1 θ φ + a 2 * ethN 2 θ φ) := by
  have s : ∀ i, field 1 0 b (eth 0 (chi i)) = field 1 1 1 (eth 0 (chi i)) := fun i =>
    support (l := 1) (by norm_num) hb fun ell m h => by unfold eth; rw [chi_ne i ell m h, mul_zero]
  unfold trans
  rw [eth_add, eth_add, eth_add, eth_smul, eth_smul, eth_smul, Verif.Props.AngMomIntegral.field_sum, Verif.Props.AngMomIntegral.field_sum, Verif.Props.AngMomIntegral.field_sum, constant_eth,
    field_const, field_const, field_const, s, s, s, (eth_nHat 0 θ φ hθ).1, (eth_nHat 1 θ φ hθ).1, (eth_nHat 2 θ φ hθ).1, zero_add]

/-- `ð̄nᵢ ðnⱼ = δᵢⱼ - nᵢ nⱼ + i εᵢⱼₖ nₖ`, with `aⱼ`. -/
theorem pointwise (a : Fin 3 → ℝ) (i : Fin 3) (θ φ : ℝ) :
    conj (ethN i θ φ) * (a 0 * ethN 0 θ φ + (a 1 * ethN 1 θ φ + a 2 * ethN 2 θ φ)) + (nHat i θ φ : ℝ) * (a 0 * nHat 0 θ φ + (a 1 * nHat 1 θ φ + a 2 * nHat 2 θ φ)) =
      a i + Complex.I * (cross a (fun k => nHat k θ φ) i : ℝ) := by
  have h1 : ((Real.sin θ : ℝ) : ℂ) ^ 2 + ((Real.cos θ : ℝ) : ℂ) ^ 2 = 1 := by exact_mod_cast Real.sin_sq_add_cos_sq θ
  have h2 : ((Real.sin φ : ℝ) : ℂ) ^ 2 + ((Real.cos φ : ℝ) : ℂ) ^ 2 = 1 := by exact_mod_cast Real.sin_sq_add_cos_sq φ
  have hI : Complex.I ^ 2 = -1 := Complex.I_sq
  have d1 : ¬ (1 : Fin 3) = 0 := by decide
  have d2 : ¬ (2 : Fin 3) = 0 := by decide
  have d3 : ¬ (2 : Fin 3) = 1 := by decide
  have c0 : ∀ x y : Fin 3 → ℝ, cross x y 0 = x 1 * y 2 - x 2 * y 1 := fun _ _ => rfl
  have c1 : ∀ x y : Fin 3 → ℝ, cross x y 1 = x 2 * y 0 - x 0 * y 2 := fun _ _ => rfl
  have c2 : ∀ x y : Fin 3 → ℝ, cross x y 2 = x 0 * y 1 - x 1 * y 0 := fun _ _ => rfl
  fin_cases i
  · show conj (ethN 0 θ φ) * _ + (nHat 0 θ φ : ℝ) * _ = a 0 + Complex.I * (cross a (fun k => nHat k θ φ) 0 : ℝ)
    rw [c0]
    simp only [ethN, nHat, if_true, if_neg d1, if_neg d2, if_neg d3, map_add, map_mul, map_neg, map_sub, Complex.conj_ofReal, Complex.conj_I, Complex.ofReal_mul, Complex.ofReal_sub]
    generalize ((Real.sin θ : ℝ) : ℂ) = s at *
    generalize ((Real.cos θ : ℝ) : ℂ) = c at *
    generalize ((Real.sin φ : ℝ) : ℂ) = S at *
    generalize ((Real.cos φ : ℝ) : ℂ) = K at *
    linear_combination (a 0 * (K ^ 2) + a 1 * (K * S)) * h1 + (a 0 + Complex.I * c * a 1) * h2 + (S * K * a 1 - S ^ 2 * a 0) * hI
  · show conj (ethN 1 θ φ) * _ + (nHat 1 θ φ : ℝ) * _ = a 1 + Complex.I * (cross a (fun k => nHat k θ φ) 1 : ℝ)
    rw [c1]
    simp only [ethN, nHat, if_true, if_neg d1, if_neg d2, if_neg d3, map_add, map_mul, map_neg, map_sub, Complex.conj_ofReal, Complex.conj_I, Complex.ofReal_mul, Complex.ofReal_sub]
    generalize ((Real.sin θ : ℝ) : ℂ) = s at *
    generalize ((Real.cos θ : ℝ) : ℂ) = c at *
    generalize ((Real.sin φ : ℝ) : ℂ) = S at *
    generalize ((Real.cos φ : ℝ) : ℂ) = K at *
    linear_combination (a 1 * (S ^ 2) + a 0 * (K * S)) * h1 + (a 1 - Complex.I * c * a 0) * h2 + (S * K * a 0 - K ^ 2 * a 1) * hI
  · show conj (ethN 2 θ φ) * _ + (nHat 2 θ φ : ℝ) * _ = a 2 + Complex.I * (cross a (fun k => nHat k θ φ) 2 : ℝ)
    rw [c2]
    simp only [ethN, nHat, if_true, if_neg d1, if_neg d2, if_neg d3, map_add, map_mul, map_neg, map_sub, Complex.conj_ofReal, Complex.conj_I, Complex.ofReal_mul, Complex.ofReal_sub]
    generalize ((Real.sin θ : ℝ) : ℂ) = s at *
    generalize ((Real.cos θ : ℝ) : ℂ) = c at *
    generalize ((Real.sin φ : ℝ) : ℂ) = S at *
    generalize ((Real.cos φ : ℝ) : ℂ) = K at *
    linear_combination (a 2) * h1

theorem pair_field {b : Int} (hb : 1 ≤ b) (i : Fin 3) (f : Modes) : pair i f = solid fun θ φ => field 0 1 1 (chi i) θ φ * field 0 0 b f θ φ :=
  proj0 (C.field 0 0 b f) i f fun m hm => (mode_of 0 b 1 m f (by norm_num) hb hm).symm

theorem pair_field1 {b : Int} (hb : 1 ≤ b) (i : Fin 3) (f : Modes) : pair i f = ((1 / √2 : ℝ) : ℂ) * solid fun θ φ => field (-1) 1 1 (ethbar 0 (chi i)) θ φ * field 1 0 b f θ φ :=
  proj1 (C.field 1 0 b f) i f fun m hm => (mode_of 1 b 1 m f (by norm_num) hb hm).symm

theorem solid_field {b : Int} (hb : 0 ≤ b) (f : Modes) : solid (field 0 0 b f) = ((√(4 * Real.pi) : ℝ) : ℂ) * f 0 0 := by
  rw [← mode_of 0 b 0 0 f (by norm_num) hb (by norm_num), ← solid_const]
  congr 1
  funext θ φ
  rw [Verif.Sphere.Y000, Complex.conj_ofReal, ← mul_assoc, ← Complex.ofReal_mul, mul_one_div_cancel (by have := Real.pi_pos; positivity), Complex.ofReal_one, one_mul]

/-- The integral for a translation. -/
theorem trans_integral {b : Int} (hb : 1 ≤ b) (i : Fin 3) (τ : ℝ) (a : Fin 3 → ℝ) (f : Modes) :
    T b (-1) (ethbar 0 (chi i)) 0 f 1 (eth 0 (trans τ a)) + T b 0 (chi i) 0 f 0 (trans τ a) =
      a i * (((√(4 * Real.pi) : ℝ) : ℂ) * f 0 0) + τ * pair i f + Complex.I * (![a 1 * pair 2 f - a 2 * pair 1 f, a 2 * pair 0 f - a 0 * pair 2 f, a 0 * pair 1 f - a 1 * pair 0 f] i : ℂ) := by
  have cN : ∀ k, C fun θ φ => field 0 1 1 (chi k) θ φ * field 0 0 b f θ φ := fun k => (C.field 0 1 1 (chi k)).mul (C.field 0 0 b f)
  have main : T b (-1) (ethbar 0 (chi i)) 0 f 1 (eth 0 (trans τ a)) + T b 0 (chi i) 0 f 0 (trans τ a) =
      solid fun θ φ => (a i * field 0 0 b f θ φ + τ * (field 0 1 1 (chi i) θ φ * field 0 0 b f θ φ)) + Complex.I * ((cross a (fun k => nHat k θ φ) i : ℝ) * field 0 0 b f θ φ) := by
    unfold T
    rw [← solid_add C3 C3]
    refine solid_congr fun θ φ hθ => ?_
    rw [trans_eth hb τ a θ φ hθ, trans_field hb, (eth_nHat i θ φ hθ).2, Verif.Props.BoostFlux.chi_field]
    linear_combination (field 0 0 b f θ φ) * pointwise a i θ φ
  rw [main]
  have key : ∀ (x y : ℝ) (j k : Fin 3), (solid fun θ φ => (a i * field 0 0 b f θ φ + τ * (field 0 1 1 (chi i) θ φ * field 0 0 b f θ φ)) +
      Complex.I * (((x * nHat j θ φ - y * nHat k θ φ : ℝ) : ℂ) * field 0 0 b f θ φ)) = a i * (((√(4 * Real.pi) : ℝ) : ℂ) * f 0 0) + τ * pair i f + Complex.I * (x * pair j f - y * pair k f) := by
    intro x y j k
    have e : (fun θ φ => (a i * field 0 0 b f θ φ + τ * (field 0 1 1 (chi i) θ φ * field 0 0 b f θ φ)) + Complex.I * (((x * nHat j θ φ - y * nHat k θ φ : ℝ) : ℂ) * field 0 0 b f θ φ)) =
        fun θ φ => ((a i * field 0 0 b f θ φ + τ * (field 0 1 1 (chi i) θ φ * field 0 0 b f θ φ)) + (Complex.I * x) * (field 0 1 1 (chi j) θ φ * field 0 0 b f θ φ)) + (-(Complex.I * y)) * (field 0 1 1 (chi k) θ φ * field 0 0 b f θ φ) := by
      funext θ φ
      rw [Verif.Props.BoostFlux.chi_field, Verif.Props.BoostFlux.chi_field, Verif.Props.BoostFlux.chi_field]
      push_cast
      ring
    rw [e, solid_add ((((C.field 0 0 b f).const _).add ((cN i).const _)).add ((cN j).const _)) ((cN k).const _), solid_add (((C.field 0 0 b f).const _).add ((cN i).const _)) ((cN j).const _),
      solid_add ((C.field 0 0 b f).const _) ((cN i).const _), solid_const, solid_const, solid_const, solid_const, ← pair_field hb, ← pair_field hb, ← pair_field hb, solid_field (by omega)]
    ring
  fin_cases i
  · exact key (a 1) (a 2) 2 1
  · exact key (a 2) (a 0) 0 2
  · exact key (a 0) (a 1) 1 0

end Verif.Supertranslation
