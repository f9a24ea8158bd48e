import Verif.Spec.Constraints
import Verif.Lemmas.Translation
import Verif.Lemmas.ChargeCov
import Verif.Props.ChargeCov
import Verif.Props.Overlap
import Verif.Props.Samples

/-!
# C99: the norms of the violations of the equations of Bondi gauge
-/

namespace Verif.Props.Constraints
open Verif Verif.Constraints Verif.Charges Verif.Spec.Constraints Verif.Spec.Sphere Verif.Spec.SphereOps Verif.GridMultiply ComplexConjugate
open Verif.Spec.Balance (IsProduct)
open Verif.Balance (C)

/-- The function that the modes stand for. -/
noncomputable def val (f : Fn) : ℝ → ℝ → ℂ := field f.spin 0 f.ellMax f.modes

theorem field_get (f : Fn) {M : Int} (h : f.ellMax ≤ M) (θ φ : ℝ) : field f.spin 0 M f.get θ φ = val f θ φ := by
  have e : ∀ R, Verif.GridMultiply.Spec.expansion f.spin M f.get R = Verif.GridMultiply.Spec.expansion f.spin f.ellMax f.modes R := by
    intro R
    rw [← Verif.Props.GridMultiply.expansion_extend f.spin h]
    unfold Verif.GridMultiply.Spec.expansion
    refine Finset.sum_congr rfl fun ell _ => Finset.sum_congr rfl fun m _ => ?_
    unfold Fn.get
    beta_reduce
    by_cases hs : |f.spin| ≤ ell
    · by_cases hl : ell ≤ f.ellMax
      · rw [if_pos ⟨hs, hl⟩, if_pos hl]
      · rw [if_neg (fun h => hl h.2), if_neg hl]
    · rw [Verif.SphereDeriv.Y_zero hs, mul_zero, mul_zero]
  exact e (rotor θ φ)

theorem val_comb (s M : Int) (f g : Modes) (k l : ℂ) (θ φ : ℝ) : field s 0 M (fun ell m => k * f ell m + l * g ell m) θ φ = k * field s 0 M f θ φ + l * field s 0 M g θ φ := by
  unfold field
  rw [Finset.mul_sum, Finset.mul_sum, ← Finset.sum_add_distrib]
  refine Finset.sum_congr rfl fun ell _ => ?_
  rw [Finset.mul_sum, Finset.mul_sum, ← Finset.sum_add_distrib]
  exact Finset.sum_congr rfl fun m _ => by ring

/-- `f + g` and `f - g` if the spin weights agree. -/
def add' (f g : Fn) : Fn := { spin := f.spin, ellMax := max f.ellMax g.ellMax, modes := fun ell m => f.get ell m + g.get ell m }
def sub' (f g : Fn) : Fn := { spin := f.spin, ellMax := max f.ellMax g.ellMax, modes := fun ell m => f.get ell m - g.get ell m }
noncomputable def imag' (f : Fn) : Fn := { f with modes := fun ell m => (f.get ell m - Charges.bar 0 f.get ell m) / (2 * Complex.I) }

theorem val_add {f g : Fn} (h : f.spin = g.spin) (θ φ : ℝ) : val (add' f g) θ φ = val f θ φ + val g θ φ := by
  have := val_comb f.spin (max f.ellMax g.ellMax) f.get g.get 1 1 θ φ
  simp only [one_mul] at this
  rw [field_get f (le_max_left _ _)] at this
  rw [h, field_get g (le_max_right _ _)] at this
  show field f.spin 0 (max f.ellMax g.ellMax) _ θ φ = _
  rw [h]
  exact this

theorem val_sub {f g : Fn} (h : f.spin = g.spin) (θ φ : ℝ) : val (sub' f g) θ φ = val f θ φ - val g θ φ := by
  have := val_comb f.spin (max f.ellMax g.ellMax) f.get g.get 1 (-1) θ φ
  simp only [one_mul, neg_mul, ← sub_eq_add_neg] at this
  rw [field_get f (le_max_left _ _)] at this
  rw [h, field_get g (le_max_right _ _)] at this
  show field f.spin 0 (max f.ellMax g.ellMax) _ θ φ = _
  rw [h]
  exact this

theorem val_smul (k : ℂ) (f : Fn) (θ φ : ℝ) : val (f.smul k) θ φ = k * val f θ φ := Verif.Props.SphereOps.field_const f.spin 0 f.ellMax k f.modes θ φ

theorem val_neg (f : Fn) (θ φ : ℝ) : val f.neg θ φ = -val f θ φ := by
  have := Verif.Props.SphereOps.field_const f.spin 0 f.ellMax (-1) f.modes θ φ
  simp only [neg_mul, one_mul] at this
  exact this

theorem val_bar (f : Fn) (θ φ : ℝ) : val f.bar θ φ = conj (val f θ φ) := by
  rw [← field_get f le_rfl, Verif.Balance.field_conj]
  rfl

theorem val_eth (f : Fn) (θ φ : ℝ) (h : Real.sin θ ≠ 0) : val f.eth θ φ = Spec.Constraints.eth f.spin (val f) θ φ := by
  have e : ∀ θ φ, field f.spin 0 f.ellMax f.get θ φ = val f θ φ := field_get f le_rfl
  unfold Spec.Constraints.eth
  rw [← Verif.Props.SphereOps.op_congr f.spin (fun θ φ _ => e θ φ) θ φ h |>.1, ← (Verif.Props.SphereOps.eth_differential f.spin 0 f.ellMax f.get θ φ h).1]
  show field (f.spin + 1) 0 f.ellMax (ethGHP f.spin f.get) θ φ = _
  rw [Verif.Balance.ghp, Verif.Props.SphereOps.field_const]
  push_cast
  ring

theorem val_imag {f : Fn} (h : f.spin = 0) (θ φ : ℝ) : val (imag' f) θ φ = ((val f θ φ).im : ℂ) := by
  have h1 : field 0 0 f.ellMax f.get θ φ = val f θ φ := by
    have := field_get f le_rfl θ φ
    rwa [h] at this
  have h2 := Verif.Balance.field_conj 0 0 f.ellMax f.get θ φ
  rw [h1, neg_zero] at h2
  have := val_comb 0 f.ellMax f.get (Charges.bar 0 f.get) (1 / (2 * Complex.I)) (-(1 / (2 * Complex.I))) θ φ
  rw [h1, ← h2] at this
  have e : val (imag' f) θ φ = field 0 0 f.ellMax (fun ell m => 1 / (2 * Complex.I) * f.get ell m + -(1 / (2 * Complex.I)) * Charges.bar 0 f.get ell m) θ φ := by
    show field f.spin 0 f.ellMax _ θ φ = _
    rw [h]
    congr 1
    funext ell m
    show (f.get ell m - Charges.bar 0 f.get ell m) / (2 * Complex.I) = _
    ring
  rw [e, this, Complex.im_eq_sub_conj]
  ring

/-- The product, if it is not truncated. -/
theorem val_mul {L : Int} {mul : Int → Int → Modes → Modes → Modes} (hmul : IsProduct L mul) (f g : Fn) (hf : f.ellMax = L) (hg : g.ellMax = L) (θ φ : ℝ) :
    val (f.mul mul (· + ·) g) θ φ = val f θ φ * val g θ φ := by
  obtain ⟨c, hc⟩ := Verif.GridMultiply.expansion_mul f.spin g.spin L L f.get g.get
  have hc' : ∀ θ φ, field f.spin 0 L f.get θ φ * field g.spin 0 L g.get θ φ = field (f.spin + g.spin) 0 (L + L) c θ φ := fun θ φ => hc (rotor θ φ) (rotor_unit θ φ)
  have key : ∀ ell m, |f.spin + g.spin| ≤ ell → ell ≤ L + L → |m| ≤ ell → mul f.spin g.spin f.get g.get ell m = c ell m := by
    intro ell m h1 h2 h3
    rw [hmul _ _ _ _ ell m h1 h3]
    simp only [hc']
    exact Verif.Supertranslation.mode_of _ _ _ _ _ h1 h2 h3
  rw [← field_get f hf.le, ← field_get g hg.le, hc']
  show field (f.spin + g.spin) 0 (f.ellMax + g.ellMax) (mul f.spin g.spin f.get g.get) θ φ = _
  rw [hf, hg]
  refine Verif.Props.SphereOps.field_congr _ _ _ _ _ _ _ fun ell m h1 h2 h3 h4 => ?_
  by_cases hs : |f.spin + g.spin| ≤ ell
  · rw [key ell m hs h2 (abs_le.2 ⟨h3, h4⟩)]
  · rw [Verif.SphereDeriv.Y_zero hs, mul_zero, mul_zero]

/-! ## The violations -/

section
variable (mul : Int → Int → Modes → Modes → Modes) (trunc : Int → Int → Int) (d : Data)

/-- The two sides of the six equations. -/
noncomputable def left : Fin 6 → Fn :=
  ![d.fn 2 d.psi0Dot, d.fn 1 d.psi1Dot, d.fn 0 d.psi2Dot, d.fn (-1) d.psi3, d.fn (-2) d.psi4, imag' (d.fn 0 d.psi2)]

noncomputable def right : Fin 6 → Fn :=
  ![add' (d.fn 1 d.psi1).eth (((d.fn 2 d.sigma).smul 3).mul mul trunc (d.fn 0 d.psi2)),
    add' (d.fn 0 d.psi2).eth (((d.fn 2 d.sigma).smul 2).mul mul trunc (d.fn (-1) d.psi3)),
    add' (d.fn (-1) d.psi3).eth ((d.fn 2 d.sigma).mul mul trunc (d.fn (-2) d.psi4)),
    (d.fn 2 d.sigmaDot).bar.eth.neg,
    (d.fn 2 d.sigmaDdot).bar.neg,
    (imag' (add' (d.fn 2 d.sigma).bar.eth.eth ((d.fn 2 d.sigma).mul mul trunc (d.fn 2 d.sigmaDot).bar))).neg]

theorem violations_ok : bondiViolations mul trunc d = .ok (List.ofFn fun k => sub' (left d k) (right mul trunc d k)) := rfl

theorem norms_ok : bondiViolationNorms mul trunc d = .ok (List.ofFn fun k => (sub' (left d k) (right mul trunc d k)).norm) := rfl

theorem spins_eq (k : Fin 6) : (left d k).spin = spins k ∧ (right mul trunc d k).spin = spins k := by
  fin_cases k <;> exact ⟨rfl, rfl⟩

end

/-- Each violation is the function that it should be. -/
theorem val_violation {d : Data} {mul : Int → Int → Modes → Modes → Modes} (hmul : IsProduct d.ellMax mul) (k : Fin 6) (θ φ : ℝ) (h : Real.sin θ ≠ 0) :
    val (sub' (left d k) (right mul (· + ·) d k)) θ φ = violation d k θ φ := by
  rw [val_sub ((spins_eq mul (· + ·) d k).1.trans (spins_eq mul (· + ·) d k).2.symm)]
  fin_cases k
  · show val (d.fn 2 d.psi0Dot) θ φ - val (add' (d.fn 1 d.psi1).eth (((d.fn 2 d.sigma).smul 3).mul mul (· + ·) (d.fn 0 d.psi2))) θ φ = _
    rw [val_add, val_eth _ _ _ h, val_mul hmul _ _ rfl rfl, val_smul]
    · rfl
    · rfl
  · show val (d.fn 1 d.psi1Dot) θ φ - val (add' (d.fn 0 d.psi2).eth (((d.fn 2 d.sigma).smul 2).mul mul (· + ·) (d.fn (-1) d.psi3))) θ φ = _
    rw [val_add, val_eth _ _ _ h, val_mul hmul _ _ rfl rfl, val_smul]
    · rfl
    · rfl
  · show val (d.fn 0 d.psi2Dot) θ φ - val (add' (d.fn (-1) d.psi3).eth ((d.fn 2 d.sigma).mul mul (· + ·) (d.fn (-2) d.psi4))) θ φ = _
    rw [val_add, val_eth _ _ _ h, val_mul hmul _ _ rfl rfl]
    · rfl
    · rfl
  · show val (d.fn (-1) d.psi3) θ φ - val (d.fn 2 d.sigmaDot).bar.eth.neg θ φ = _
    rw [val_neg, val_eth _ _ _ h, show val (d.fn 2 d.sigmaDot).bar = fun θ φ => conj (val (d.fn 2 d.sigmaDot) θ φ) from funext fun θ => funext fun φ => val_bar _ θ φ]
    rfl
  · show val (d.fn (-2) d.psi4) θ φ - val (d.fn 2 d.sigmaDdot).bar.neg θ φ = _
    rw [val_neg, val_bar]
    rfl
  · show val (imag' (d.fn 0 d.psi2)) θ φ - val (imag' (add' (d.fn 2 d.sigma).bar.eth.eth ((d.fn 2 d.sigma).mul mul (· + ·) (d.fn 2 d.sigmaDot).bar))).neg θ φ = _
    have e1 : val (d.fn 2 d.sigma).bar = fun θ φ => conj (val (d.fn 2 d.sigma) θ φ) := funext fun θ => funext fun φ => val_bar _ θ φ
    have e2 : ∀ θ φ, Real.sin θ ≠ 0 → val (d.fn 2 d.sigma).bar.eth θ φ = Spec.Constraints.eth (-2) (fun θ φ => conj (val (d.fn 2 d.sigma) θ φ)) θ φ := fun θ φ h => by
      rw [val_eth _ _ _ h, e1]
      rfl
    have e3 : val (d.fn 2 d.sigma).bar.eth.eth θ φ = Spec.Constraints.eth (-1) (Spec.Constraints.eth (-2) fun θ φ => conj (val (d.fn 2 d.sigma) θ φ)) θ φ := by
      rw [val_eth _ _ _ h]
      unfold Spec.Constraints.eth
      rw [(Verif.Props.SphereOps.op_congr _ e2 θ φ h).1]
      rfl
    rw [val_neg, val_imag rfl, val_imag rfl, val_add (show (d.fn 2 d.sigma).bar.eth.eth.spin = ((d.fn 2 d.sigma).mul mul (· + ·) (d.fn 2 d.sigmaDot).bar).spin from rfl), val_mul hmul _ _ rfl rfl, val_bar, e3]
    show _ = (((val (d.fn 0 d.psi2) θ φ).im - -(Spec.Constraints.eth (-1) (Spec.Constraints.eth (-2) fun θ φ => conj (val (d.fn 2 d.sigma) θ φ)) θ φ + val (d.fn 2 d.sigma) θ φ * conj (val (d.fn 2 d.sigmaDot) θ φ)).im : ℝ) : ℂ)
    push_cast
    rfl

theorem norm_sq (f : Fn) : (f.norm ^ 2 : ℝ) = solid fun θ φ => conj (val f θ φ) * val f θ φ := by
  have h1 : f.norm ^ 2 = ∑ ell ∈ Finset.Icc |f.spin| f.ellMax, ∑ m ∈ Finset.Icc (-ell) ell, Complex.normSq (f.modes ell m) := by
    unfold Fn.norm
    rw [Real.sq_sqrt (Finset.sum_nonneg fun _ _ => Finset.sum_nonneg fun _ _ => Complex.normSq_nonneg _)]
    symm
    refine Finset.sum_subset_zero_on_sdiff (Finset.Icc_subset_Icc_left (abs_nonneg _)) (fun ell he => ?_) (fun ell he => ?_)
    · rw [Finset.mem_sdiff, Finset.mem_Icc, Finset.mem_Icc] at he
      refine Finset.sum_eq_zero fun m _ => ?_
      unfold Fn.get
      rw [if_neg (by omega), map_zero]
    · rw [Finset.mem_Icc] at he
      refine Finset.sum_congr rfl fun m _ => ?_
      unfold Fn.get
      rw [if_pos he]
  have h2 : ∀ θ φ, val f θ φ = field f.spin |f.spin| f.ellMax f.modes θ φ := by
    intro θ φ
    unfold val field
    symm
    refine Finset.sum_subset_zero_on_sdiff (Finset.Icc_subset_Icc_left (abs_nonneg _)) (fun ell he => ?_) (fun ell he => rfl)
    rw [Finset.mem_sdiff, Finset.mem_Icc, Finset.mem_Icc] at he
    refine Finset.sum_eq_zero fun m _ => ?_
    rw [Verif.SphereDeriv.Y_zero (by omega), mul_zero]
  simp only [h2]
  rw [FluxIntegral.parseval _ _ _ le_rfl, h1]
  unfold Verif.Spec.AngMom.inner
  push_cast
  refine Finset.sum_congr rfl fun ell _ => Finset.sum_congr rfl fun m _ => ?_
  rw [Complex.normSq_eq_conj_mul_self]

theorem norm_zero (f : Fn) : f.norm = 0 ↔ ∀ θ φ, 0 < θ → θ < Real.pi → val f θ φ = 0 := by
  constructor
  · intro h θ φ _ _
    unfold Fn.norm at h
    rw [Real.sqrt_eq_zero (Finset.sum_nonneg fun _ _ => Finset.sum_nonneg fun _ _ => Complex.normSq_nonneg _), Finset.sum_eq_zero_iff_of_nonneg fun _ _ => Finset.sum_nonneg fun _ _ => Complex.normSq_nonneg _] at h
    rw [← field_get f le_rfl]
    unfold field
    refine Finset.sum_eq_zero fun ell he => Finset.sum_eq_zero fun m hm => ?_
    have := h ell he
    rw [Finset.sum_eq_zero_iff_of_nonneg fun _ _ => Complex.normSq_nonneg _] at this
    rw [Complex.normSq_eq_zero.1 (this m hm), zero_mul]
  · intro h
    have h2 := norm_sq f
    have : (solid fun θ φ => conj (val f θ φ) * val f θ φ) = solid fun _ _ => 0 := by
      unfold solid
      refine intervalIntegral.integral_congr_ae ?_
      refine (MeasureTheory.ae_iff.2 ?_)
      refine MeasureTheory.measure_mono_null (t := {Real.pi}) ?_ (MeasureTheory.measure_singleton _)
      intro θ hθ
      by_contra hne
      apply hθ
      intro hm
      rw [Set.uIoc_of_le Real.pi_pos.le] at hm
      have e : ∀ φ, val f θ φ = 0 := fun φ => h θ φ hm.1 (lt_of_le_of_ne hm.2 hne)
      simp [e]
    rw [this] at h2
    have h3 : (solid fun _ _ => (0 : ℂ)) = 0 := by simp [solid]
    rw [h3] at h2
    exact pow_eq_zero_iff (two_ne_zero) |>.1 (by exact_mod_cast h2)

/-- **C99**: with the default `multiplication_truncator`, `sum`, each of the six numbers is the root of the integral over the sphere of the squared magnitude of the violation, and it is zero exactly if the equation holds in all directions. -/
theorem norms_spec {d : Data} {mul : Int → Int → Modes → Modes → Modes} (hmul : IsProduct d.ellMax mul) :
    ∃ n : Fin 6 → ℝ, bondiViolationNorms mul (· + ·) d = .ok (List.ofFn n) ∧ ∀ k, 0 ≤ n k ∧ ((n k ^ 2 : ℝ) : ℂ) = (solid fun θ φ => conj (violation d k θ φ) * violation d k θ φ) ∧
      (n k = 0 ↔ ∀ θ φ, 0 < θ → θ < Real.pi → violation d k θ φ = 0) := by
  refine ⟨_, norms_ok mul (· + ·) d, fun k => ⟨Real.sqrt_nonneg _, ?_, ?_⟩⟩
  · rw [norm_sq]
    exact Verif.Props.SphereOps.solid_congr fun θ φ h => by rw [val_violation hmul k θ φ h]
  · rw [norm_zero]
    have hs : ∀ θ, 0 < θ → θ < Real.pi → Real.sin θ ≠ 0 := fun θ h0 h1 => (Real.sin_pos_of_pos_of_lt_pi h0 h1).ne'
    exact ⟨fun h θ φ h0 h1 => (val_violation hmul k θ φ (hs θ h0 h1)).symm.trans (h θ φ h0 h1), fun h θ φ h0 h1 => (val_violation hmul k θ φ (hs θ h0 h1)).trans (h θ φ h0 h1)⟩

/-! ## The truncation of products -/

theorem get_add {f g : Fn} (h : f.spin = g.spin) (ell m : Int) : (add' f g).get ell m = f.get ell m + g.get ell m := by
  unfold add' Fn.get
  simp only [h, le_max_iff]
  split_ifs <;> simp_all

theorem get_sub {f g : Fn} (h : f.spin = g.spin) (ell m : Int) : (sub' f g).get ell m = f.get ell m - g.get ell m := by
  unfold sub' Fn.get
  simp only [h, le_max_iff]
  split_ifs <;> simp_all

theorem get_neg (f : Fn) (ell m : Int) : f.neg.get ell m = -f.get ell m := by
  unfold Fn.neg Fn.get
  simp only
  split_ifs <;> simp

theorem get_smul (k : ℂ) (f : Fn) (ell m : Int) : (f.smul k).get ell m = k * f.get ell m := by
  unfold Fn.smul Fn.get
  simp only
  split_ifs <;> simp

theorem get_zero {f : Fn} {ell m : Int} (h : ¬ (|f.spin| ≤ ell ∧ ell ≤ f.ellMax)) : f.get ell m = 0 := if_neg h

theorem get_imag {f : Fn} (ell m : Int) : (imag' f).get ell m = (f.get ell m - Charges.bar 0 f.get ell m) / (2 * Complex.I) := by
  by_cases h : |f.spin| ≤ ell ∧ ell ≤ f.ellMax
  · exact if_pos h
  · refine (if_neg h).trans ?_
    unfold Charges.bar
    rw [get_zero h, get_zero h]
    simp

theorem norm_get (f : Fn) {M : Int} (h : f.ellMax ≤ M) : f.norm = √(∑ ell ∈ Finset.Icc 0 M, ∑ m ∈ Finset.Icc (-ell) ell, Complex.normSq (f.get ell m)) := by
  unfold Fn.norm
  congr 1
  refine Finset.sum_subset (Finset.Icc_subset_Icc_right h) fun ell h1 h2 => ?_
  rw [Finset.mem_Icc] at h1 h2
  refine Finset.sum_eq_zero fun m _ => ?_
  rw [get_zero (by omega), map_zero]

/-- The weights up to `T` are the same. -/
def Upto (T : Int) (f g : Fn) : Prop := f.spin = g.spin ∧ ∀ ell m, ell ≤ T → f.get ell m = g.get ell m

theorem upto_right {d : Data} (mul : Int → Int → Modes → Modes → Modes) {trunc : Int → Int → Int} (hT : trunc d.ellMax d.ellMax ≤ d.ellMax + d.ellMax) (k : Fin 6) :
    Upto (trunc d.ellMax d.ellMax) (right mul trunc d k) (right mul (· + ·) d k) := by
  have hm : ∀ f g : Fn, f.ellMax = d.ellMax → g.ellMax = d.ellMax → Upto (trunc d.ellMax d.ellMax) (f.mul mul trunc g) (f.mul mul (· + ·) g) := by
    intro f g hf hg
    refine ⟨rfl, fun ell m hl => ?_⟩
    unfold Fn.mul Fn.get
    simp only [hf, hg]
    have h2 : ell ≤ d.ellMax + d.ellMax := hl.trans hT
    simp only [hl, h2]
  have ha : ∀ f g g' : Fn, f.spin = g.spin → Upto (trunc d.ellMax d.ellMax) g g' → Upto (trunc d.ellMax d.ellMax) (add' f g) (add' f g') := by
    intro f g g' h h'
    refine ⟨rfl, fun ell m hl => ?_⟩
    rw [get_add h, get_add (h.trans h'.1), h'.2 ell m hl]
  fin_cases k
  · exact ha _ _ _ rfl (hm _ _ rfl rfl)
  · exact ha _ _ _ rfl (hm _ _ rfl rfl)
  · exact ha _ _ _ rfl (hm _ _ rfl rfl)
  · exact ⟨rfl, fun _ _ _ => rfl⟩
  · exact ⟨rfl, fun _ _ _ => rfl⟩
  · have hb := hm (d.fn 2 d.sigma) (d.fn 2 d.sigmaDot).bar rfl rfl
    have h := ha (d.fn 2 d.sigma).bar.eth.eth _ _ (show _ = (Fn.mul mul trunc (d.fn 2 d.sigma) (d.fn 2 d.sigmaDot).bar).spin from rfl) (hm (d.fn 2 d.sigma) (d.fn 2 d.sigmaDot).bar rfl rfl)
    refine ⟨rfl, fun ell m hl => ?_⟩
    show (imag' _).neg.get ell m = (imag' _).neg.get ell m
    rw [get_neg, get_neg, get_imag, get_imag]
    unfold Charges.bar
    rw [h.2 ell m hl, h.2 ell (-m) hl]

/-- A weight of a violation is the projection of the function. -/
theorem get_violation {d : Data} {mul : Int → Int → Modes → Modes → Modes} (hmul : IsProduct d.ellMax mul) (k : Fin 6) (ell m : Int) (hs : |spins k| ≤ ell) (hm : |m| ≤ ell) :
    (sub' (left d k) (right mul (· + ·) d k)).get ell m = solid fun θ φ => conj (Y (spins k) ell m (rotor θ φ)) * violation d k θ φ := by
  obtain ⟨v, hv⟩ : ∃ v, v = sub' (left d k) (right mul (· + ·) d k) := ⟨_, rfl⟩
  have hsp : v.spin = spins k := by rw [hv]; exact (spins_eq mul (· + ·) d k).1
  rw [← hv, ← Verif.Supertranslation.mode_of (spins k) (max v.ellMax ell) ell m v.get hs (le_max_right _ _) hm]
  refine Verif.Props.SphereOps.solid_congr fun θ φ h => ?_
  rw [← hsp, field_get v (le_max_left _ _), hv, val_violation hmul k θ φ h]

/-- **C99**: with another `multiplication_truncator`, such as `max`, which cuts products at `T`, only the part of the violation with `ell <= T` is seen. -/
theorem norms_truncated {d : Data} {mul : Int → Int → Modes → Modes → Modes} (hmul : IsProduct d.ellMax mul) {trunc : Int → Int → Int} {T : Int} (h : trunc d.ellMax d.ellMax = T) (h1 : d.ellMax ≤ T) (h2 : T ≤ 2 * d.ellMax) :
    ∃ n : Fin 6 → ℝ, bondiViolationNorms mul trunc d = .ok (List.ofFn n) ∧ ∀ k, 0 ≤ n k ∧
      n k ^ 2 = ∑ ell ∈ Finset.Icc |spins k| T, ∑ m ∈ Finset.Icc (-ell) ell, Complex.normSq (solid fun θ φ => conj (Y (spins k) ell m (rotor θ φ)) * violation d k θ φ) := by
  refine ⟨_, norms_ok mul trunc d, fun k => ⟨Real.sqrt_nonneg _, ?_⟩⟩
  have hu := upto_right mul (trunc := trunc) (d := d) (by omega) k
  have he : (sub' (left d k) (right mul trunc d k)).ellMax ≤ T := by
    show max (left d k).ellMax (right mul trunc d k).ellMax ≤ T
    rw [max_le_iff]
    constructor
    · fin_cases k <;> exact h1
    · fin_cases k
      · exact max_le h1 h.le
      · exact max_le h1 h.le
      · exact max_le h1 h.le
      · exact h1
      · exact h1
      · exact max_le h1 h.le
  rw [norm_get _ he, Real.sq_sqrt (Finset.sum_nonneg fun _ _ => Finset.sum_nonneg fun _ _ => Complex.normSq_nonneg _)]
  have hsp := spins_eq mul trunc d k
  have hsp' := spins_eq mul (· + ·) d k
  symm
  refine Finset.sum_subset_zero_on_sdiff (Finset.Icc_subset_Icc_left (abs_nonneg _)) (fun ell hl => ?_) (fun ell hl => ?_)
  · rw [Finset.mem_sdiff, Finset.mem_Icc, Finset.mem_Icc] at hl
    refine Finset.sum_eq_zero fun m _ => ?_
    rw [get_zero, map_zero]
    show ¬ (|(left d k).spin| ≤ ell ∧ _)
    rw [hsp.1]
    omega
  · rw [Finset.mem_Icc] at hl
    refine Finset.sum_congr rfl fun m hm => ?_
    rw [Finset.mem_Icc] at hm
    rw [← get_violation hmul k ell m hl.1 (abs_le.2 hm), get_sub (hsp.1.trans hsp.2.symm), get_sub (hsp'.1.trans hsp'.2.symm), hu.2 ell m (by omega)]

/-! ## Rotations -/

section
open Verif.Spec.ChargeCov (RotatedModes)
open Verif.Spec.Rotation (rot UnitRotor)

/-- All weights are those with respect to the rotated basis. -/
structure Rot (Q : Quaternion ℝ) (f' f : Fn) : Prop where
  spin : f'.spin = f.spin
  ellMax : f'.ellMax = f.ellMax
  get : ∀ ell m, |m| ≤ ell → f'.get ell m = rot ell Q (f.get ell) m

variable {Q : Quaternion ℝ}

theorem rot_null (ell : Int) (f : Int → ℂ) (h : ∀ n, f n = 0) (m : Int) : rot ell Q f m = 0 := by
  unfold Verif.Spec.Rotation.rot
  simp [h]

theorem rot_of {f' f : Fn} (hs : f'.spin = f.spin) (he : f'.ellMax = f.ellMax) (h : RotatedModes f.ellMax f.spin Q f'.modes f.modes) : Rot Q f' f := by
  refine ⟨hs, he, fun ell m hm => ?_⟩
  by_cases hl : |f.spin| ≤ ell ∧ ell ≤ f.ellMax
  · have e1 : f'.get ell m = f'.modes ell m := if_pos (by rw [hs, he]; exact hl)
    have e2 : f.get ell = f.modes ell := funext fun n => if_pos hl
    rw [e1, e2, h ell m hl.1 hl.2 hm]
  · rw [get_zero (by rw [hs, he]; exact hl), rot_null ell _ fun n => get_zero hl]

theorem Rot.modes {f' f : Fn} (h : Rot Q f' f) (L : Int) : RotatedModes L f.spin Q f'.get f.get := fun ell m _ _ hm => h.get ell m hm

theorem Rot.eth {f' f : Fn} (h : Rot Q f' f) : Rot Q f'.eth f.eth := by
  refine rot_of (by show f'.spin + 1 = f.spin + 1; rw [h.spin]) h.ellMax ?_
  show RotatedModes f.ellMax (f.spin + 1) Q (ethGHP f'.spin f'.get) (ethGHP f.spin f.get)
  rw [h.spin]
  exact Verif.ChargeCov.eth_rotated (h.modes _)

theorem Rot.bar {f' f : Fn} (h : Rot Q f' f) : Rot Q f'.bar f.bar := by
  refine rot_of (by show -f'.spin = -f.spin; rw [h.spin]) h.ellMax ?_
  show RotatedModes f.ellMax (-f.spin) Q (Charges.bar f'.spin f'.get) (Charges.bar f.spin f.get)
  rw [h.spin]
  exact Verif.ChargeCov.bar_rotated (h.modes _)

theorem rot_smul' (ell : Int) (k : ℂ) (f : Int → ℂ) (m : Int) : rot ell Q (fun n => k * f n) m = k * rot ell Q f m := by
  unfold Verif.Spec.Rotation.rot
  rw [Finset.mul_sum]
  exact Finset.sum_congr rfl fun n _ => by ring

theorem Rot.smul {f' f : Fn} (h : Rot Q f' f) (k : ℂ) : Rot Q (f'.smul k) (f.smul k) := by
  refine ⟨h.spin, h.ellMax, fun ell m hm => ?_⟩
  rw [get_smul, h.get ell m hm, ← rot_smul']
  congr 1
  funext n
  rw [get_smul]

theorem Rot.neg {f' f : Fn} (h : Rot Q f' f) : Rot Q f'.neg f.neg := by
  refine ⟨h.spin, h.ellMax, fun ell m hm => ?_⟩
  have e : f.neg.get ell = fun n => -1 * f.get ell n := by
    funext n
    rw [get_neg]
    ring
  rw [get_neg, h.get ell m hm, e, rot_smul']
  ring

theorem Rot.add {f' f g' g : Fn} (hf : Rot Q f' f) (hg : Rot Q g' g) (hs : f.spin = g.spin) : Rot Q (add' f' g') (add' f g) := by
  refine ⟨hf.spin, by show max _ _ = max _ _; rw [hf.ellMax, hg.ellMax], fun ell m hm => ?_⟩
  have e : (add' f g).get ell = fun n => f.get ell n + g.get ell n := funext fun n => get_add hs ell n
  rw [get_add (hf.spin.trans (hs.trans hg.spin.symm)), e, Verif.ChargeCov.rot_add, hf.get ell m hm, hg.get ell m hm]

theorem Rot.sub {f' f g' g : Fn} (hf : Rot Q f' f) (hg : Rot Q g' g) (hs : f.spin = g.spin) : Rot Q (sub' f' g') (sub' f g) := by
  refine ⟨hf.spin, by show max _ _ = max _ _; rw [hf.ellMax, hg.ellMax], fun ell m hm => ?_⟩
  have e : (sub' f g).get ell = fun n => f.get ell n + -1 * g.get ell n := funext fun n => by
    rw [get_sub hs ell n]
    ring
  rw [get_sub (hf.spin.trans (hs.trans hg.spin.symm)), e, Verif.ChargeCov.rot_add, rot_smul', hf.get ell m hm, hg.get ell m hm]
  ring

theorem Rot.imag {f' f : Fn} (h : Rot Q f' f) : Rot Q (imag' f') (imag' f) := by
  refine ⟨h.spin, h.ellMax, fun ell m hm => ?_⟩
  have e : (imag' f).get ell = fun n => 1 / (2 * Complex.I) * (f.get ell n + -1 * Charges.bar 0 f.get ell n) := funext fun n => by
    rw [get_imag]
    ring
  have hb : Charges.bar 0 f'.get ell m = rot ell Q (Charges.bar 0 f.get ell) m := by
    rw [← Verif.ChargeCov.bar_rot 0 ell Q f.get m hm]
    unfold Charges.bar
    rw [h.get ell (-m) (by rwa [abs_neg])]
  rw [get_imag, e, rot_smul', Verif.ChargeCov.rot_add, rot_smul', h.get ell m hm, hb]
  ring

theorem Rot.mul {L : Int} (hL : 0 ≤ L) {mul : Int → Int → Modes → Modes → Modes} (hmul : IsProduct L mul) (hQ : UnitRotor Q) (trunc : Int → Int → Int) {f' f g' g : Fn} (hf : Rot Q f' f) (hg : Rot Q g' g) :
    Rot Q (f'.mul mul trunc g') (f.mul mul trunc g) := by
  refine rot_of (by show f'.spin + g'.spin = f.spin + g.spin; rw [hf.spin, hg.spin]) (by show trunc _ _ = trunc _ _; rw [hf.ellMax, hg.ellMax]) ?_
  intro ell m h1 h2 h3
  show mul f'.spin g'.spin f'.get g'.get ell m = rot ell Q (mul f.spin g.spin f.get g.get ell) m
  rw [hf.spin, hg.spin]
  exact Verif.ChargeCov.mul_rotated hmul hL hQ (hf.modes L) (hg.modes L) ell m h1 h3

theorem Rot.norm {f' f : Fn} (hQ : UnitRotor Q) (h : Rot Q f' f) : f'.norm = f.norm := by
  unfold Fn.norm
  rw [h.ellMax]
  congr 1
  refine Finset.sum_congr rfl fun ell _ => ?_
  have key := Overlap.rot_inner ell Q hQ (f.get ell) (f.get ell)
  have e : ∀ g : Int → ℂ, ((∑ m ∈ Finset.Icc (-ell) ell, Complex.normSq (g m) : ℝ) : ℂ) = ∑ m ∈ Finset.Icc (-ell) ell, conj (g m) * g m := by
    intro g
    push_cast
    exact Finset.sum_congr rfl fun m _ => Complex.normSq_eq_conj_mul_self
  rw [← e, ← e] at key
  have key' := Complex.ofReal_injective key
  rw [← key']
  refine Finset.sum_congr rfl fun m hm => ?_
  rw [Finset.mem_Icc] at hm
  rw [h.get ell m (abs_le.2 hm)]

/-- **C99**: the violations of data in a rotated frame have the same norms, with any truncator. -/
theorem norms_rotated {d' d : Data} {mul : Int → Int → Modes → Modes → Modes} (hL : 0 ≤ d.ellMax) (hmul : IsProduct d.ellMax mul) (trunc : Int → Int → Int) (hQ : UnitRotor Q) (h : Spec.Constraints.Rotated Q d' d) :
    bondiViolationNorms mul trunc d' = bondiViolationNorms mul trunc d := by
  have key : ∀ {s : Int} {f' f : Modes}, RotatedModes d.ellMax s Q f' f → Rot Q (d'.fn s f') (d.fn s f) := fun h' => rot_of rfl h.ellMax h'
  have hm : ∀ {f' f g' g : Fn}, Rot Q f' f → Rot Q g' g → Rot Q (f'.mul mul trunc g') (f.mul mul trunc g) := fun a b => Rot.mul hL hmul hQ trunc a b
  rw [norms_ok, norms_ok]
  congr 2
  funext k
  refine Rot.norm hQ (Rot.sub ?_ ?_ ((spins_eq mul trunc d k).1.trans (spins_eq mul trunc d k).2.symm))
  · fin_cases k
    · exact key h.psi0Dot
    · exact key h.psi1Dot
    · exact key h.psi2Dot
    · exact key h.psi3
    · exact key h.psi4
    · exact (key h.psi2).imag
  · fin_cases k
    · exact (key h.psi1).eth.add (hm ((key h.sigma).smul 3) (key h.psi2)) rfl
    · exact (key h.psi2).eth.add (hm ((key h.sigma).smul 2) (key h.psi3)) rfl
    · exact (key h.psi3).eth.add (hm (key h.sigma) (key h.psi4)) rfl
    · exact (key h.sigmaDot).bar.eth.neg
    · exact (key h.sigmaDdot).bar.neg
    · exact ((key h.sigma).bar.eth.eth.add (hm (key h.sigma) (key h.sigmaDot).bar) rfl).imag.neg

end

/-! ## `transform` -/

section
open Verif.AbdModes.Spec (Transformed Good mode)
open Verif.GridModes.Spec (TimeAndRotation)
open Verif.Spec.ChargeCov (Derivative)
open Verif.Spec.Rotation (rot)

theorem rotated_of_transformed {w w2 : List ℝ → Nat → Nat → ℝ} (hw : Derivative w) (hw2 : Derivative w2) {a b : AbdModes.Abd} {tau : ℝ} {R : Quaternion ℝ} (h : Transformed b a tau R) (hL : b.ellMax = a.ellMax) (i : Nat) (hi : i < a.t.length) :
    Spec.Constraints.Rotated R (Spec.Constraints.dataAt w w2 b i) (Spec.Constraints.dataAt w w2 a i) := by
  obtain ⟨ht, hc⟩ := h
  have key : ∀ (c : Fin 6) (j : Nat), j < a.t.length → Verif.Spec.ChargeCov.RotatedModes a.ellMax (Verif.AbdModes.Spec.spinOf c) R (mode b c j) (mode a c j) := by
    intro c j hj ell m hs hl hm
    have hm' := abs_le.1 hm
    have := (hc c).2 j hj ell m hs (by rw [hL]; exact hl) hm'.1 hm'.2
    rwa [if_pos hl] at this
  have dot : ∀ {w : List ℝ → Nat → Nat → ℝ} (_ : Derivative w) (c : Fin 6), Verif.Spec.ChargeCov.RotatedModes a.ellMax (Verif.AbdModes.Spec.spinOf c) R
      (fun ell m => ∑ j ∈ Finset.range b.t.length, (w b.t i j : ℂ) * mode b c j ell m) (fun ell m => ∑ j ∈ Finset.range a.t.length, (w a.t i j : ℂ) * mode a c j ell m) := by
    intro w hw c ell m hs hl hm
    simp only [ht, hw a.t tau, List.length_map]
    have e : rot ell R (fun m => ∑ j ∈ Finset.range a.t.length, (w a.t i j : ℂ) * mode a c j ell m) m = ∑ j ∈ Finset.range a.t.length, (w a.t i j : ℂ) * rot ell R (mode a c j ell) m := by
      unfold Verif.Spec.Rotation.rot
      simp only [Finset.sum_mul, Finset.mul_sum]
      rw [Finset.sum_comm]
      refine Finset.sum_congr rfl fun j _ => Finset.sum_congr rfl fun n _ => ?_
      ring
    refine Eq.trans ?_ e.symm
    refine Finset.sum_congr rfl fun j hj => ?_
    rw [key c j (Finset.mem_range.1 hj) ell m hs hl hm]
  exact ⟨hL, dot hw 0, dot hw 1, dot hw 2, key 1 i hi, key 2 i hi, key 3 i hi, key 4 i hi, key 5 i hi, dot hw 5, dot hw2 5⟩

/-- **C99**: a time translation and a rotation do not change the norms of the violations, if the products are not truncated. -/
theorem norms_of_transform {spline : List (ℝ × ℂ) → ℝ → ℂ} (hs : Verif.AbdModes.Spec.Interpolates spline) {map2salm : List ℂ → Nat → Nat → Int → Int → Verif.Modes.Row ℂ} (hE : Verif.GridModes.Spec.Exact map2salm)
    (a : Constraints.Abd) (ha : Good a.abd) (hsum : a.trunc = (· + ·)) (kw : TransformKwargs.Kw) (tau : ℝ) (R : Quaternion ℝ) (h : TimeAndRotation kw tau R) (hw : kw.working_ell_max = none) (hL : kw.output_ell_max = none)
    {w w2 : List ℝ → Nat → Nat → ℝ} (hd : Derivative w) (hd2 : Derivative w2) {mul : Int → Int → Modes → Modes → Modes} (hmul : IsProduct a.abd.ellMax mul) :
    ∃ b, Constraints.transform spline map2salm a kw = .ok b ∧ b.abd.t = a.abd.t.map (· - tau) ∧ ∀ i, i < a.abd.t.length →
      bondiViolationNorms mul b.trunc (Spec.Constraints.dataAt w w2 b.abd i) = bondiViolationNorms mul a.trunc (Spec.Constraints.dataAt w w2 a.abd i) := by
  have hn := ha.ellMax
  obtain ⟨b, e1, e2, e3⟩ := Verif.Props.AbdModes.transform_time_rotation hs hE a.abd ha kw tau R h (2 * a.abd.ellMax + 1) a.abd.ellMax (by rw [hw]; rfl) (by rw [hL]; rfl) (by omega) (by omega)
  refine ⟨{ abd := b, trunc := (· + ·) }, ?_, e3.1, fun i hi => ?_⟩
  · unfold Constraints.transform
    rw [e1]
    rfl
  · rw [hsum]
    have hr := rotated_of_transformed hd hd2 e3 e2 i hi
    have hu := Verif.Props.ChargeCov.unit_of_rotation h
    have hL' : (Spec.Constraints.dataAt w w2 a.abd i).ellMax = a.abd.ellMax := rfl
    exact norms_rotated (d := Spec.Constraints.dataAt w w2 a.abd i) (by rw [hL']; exact hn) (by rw [hL']; exact hmul) (· + ·) hu hr

/-! ### The truncator of the result -/

theorem azimuthal {s l m m' s1 s2 l1 l2 : Int} (hs : |s| ≤ l) (hm : |m| ≤ l) (h1 : |s1| ≤ l1) (h2 : |s2| ≤ l2) (hm1 : |m'| ≤ l1) (hm2 : |m'| ≤ l2) (h : m < 2 * m') (k : ℂ) :
    (solid fun θ φ => conj (Y s l m (rotor θ φ)) * (k * (Y s1 l1 m' (rotor θ φ) * Y s2 l2 m' (rotor θ φ)))) = 0 := by
  unfold Verif.Spec.Sphere.solid
  have e : ∀ θ : ℝ, ∫ φ in (0 : ℝ)..(2 * Real.pi), conj (Y s l m (rotor θ φ)) * (k * (Y s1 l1 m' (rotor θ φ) * Y s2 l2 m' (rotor θ φ))) * Real.sin θ = 0 := by
    intro θ
    obtain ⟨c0, e0⟩ := Verif.Props.Samples.Y_form hs hm θ
    obtain ⟨c1, e1⟩ := Verif.Props.Samples.Y_form h1 hm1 θ
    obtain ⟨c2, e2⟩ := Verif.Props.Samples.Y_form h2 hm2 θ
    have e : ∀ φ : ℝ, conj (Y s l m (rotor θ φ)) * (k * (Y s1 l1 m' (rotor θ φ) * Y s2 l2 m' (rotor θ φ))) * Real.sin θ = conj c0 * k * c1 * c2 * Real.sin θ * Complex.exp ((2 * m' - m : Int) * φ * Complex.I) := by
      intro φ
      rw [e0, e1, e2, map_mul, ← Complex.exp_conj]
      have : Complex.exp ((2 * m' - m : Int) * φ * Complex.I) = Complex.exp (conj ((m : ℂ) * φ * Complex.I)) * (Complex.exp (m' * φ * Complex.I) * Complex.exp (m' * φ * Complex.I)) := by
        rw [← Complex.exp_add, ← Complex.exp_add]
        congr 1
        simp only [map_mul, Complex.conj_I, Complex.conj_ofReal, map_intCast]
        push_cast
        ring
      rw [this]
      ring
    simp only [e]
    rw [intervalIntegral.integral_const_mul, Verif.Sphere.azimuth, if_neg (by omega), Complex.ofReal_zero, mul_zero]
  simp only [e, intervalIntegral.integral_zero]

theorem Y222_ne : Y 2 2 2 (rotor (Real.pi / 2) 0) ≠ 0 := by
  rw [Y_rotor (by norm_num) (by norm_num) (by norm_num)]
  refine mul_ne_zero (mul_ne_zero (Verif.GridMultiply.fac_ne _ _ _ (by norm_num)) (Complex.exp_ne_zero _)) ?_
  have h : Real.sin (Real.pi / 2 / 2) ≠ 0 := (Real.sin_pos_of_pos_of_lt_pi (by positivity) (by linarith [Real.pi_pos])).ne'
  simp [Wigner.coef, Finset.sum_filter, Finset.sum_range_succ, Nat.choose]
  rw [← Complex.ofReal_ofNat, ← Complex.ofReal_div, ← Complex.ofReal_div, ← Complex.ofReal_sin]
  exact_mod_cast h

theorem Y022_ne : Y 0 2 2 (rotor (Real.pi / 2) 0) ≠ 0 := by
  rw [Verif.Props.GridMultiply.Y22, Real.sin_pi_div_two]
  have := Verif.GridMultiply.fac_ne 0 2 2 (by norm_num)
  have := Complex.exp_ne_zero (2 * ((0 : ℝ) : ℂ) * Complex.I)
  simp_all

/-- Only the `(2, 2)` modes of `psi2` and `sigma` are not zero; products are truncated as `from_initial_values` has it. -/
noncomputable def one22 : Verif.Modes.Row ℂ := fun i => if i = 8 then 1 else 0
noncomputable def null : Verif.Modes.Row ℂ := fun _ => 0
noncomputable def lossy : Constraints.Abd where
  abd := { t := [0, 1], ellMax := 2, data := ![[null, null], [null, null], [one22, one22], [null, null], [null, null], [one22, one22]] }
  trunc := max

theorem lossy_good : Good lossy.abd where
  times := le_rfl
  increasing := by
    show List.Pairwise (· < ·) [(0 : ℝ), 1]
    simp
  rows c := by fin_cases c <;> rfl
  ellMax := by show (0 : Int) ≤ 2; norm_num

theorem lossy_null (c : Fin 6) (h : c = 0 ∨ c = 1) (j : Nat) : mode lossy.abd c j = fun _ _ => 0 := by
  have e : ∀ j, [null, null].getD j (fun _ => 0) = fun _ => 0 := by
    intro j
    rcases j with _ | _ | j <;> rfl
  funext ell m
  have h2 : lossy.abd.data c = [null, null] := by rcases h with rfl | rfl <;> rfl
  show ((lossy.abd.data c).getD j fun _ => 0) _ = 0
  rw [h2, e]

theorem field_null (s M : Int) : field s 0 M (fun _ _ => 0) = fun _ _ => 0 := by
  funext θ φ
  unfold Verif.Spec.Sphere.field
  simp

theorem lossy_one (c : Fin 6) (h : c = 2 ∨ c = 5) (s : Int) (θ φ : ℝ) : field s 0 2 (mode lossy.abd c 0) θ φ = Y s 2 2 (rotor θ φ) := by
  have h2 : (lossy.abd.data c).getD 0 (fun _ => 0) = one22 := by rcases h with rfl | rfl <;> rfl
  have e : ∀ ell ∈ Finset.Icc (0 : Int) 2, ∀ m ∈ Finset.Icc (-ell) ell, mode lossy.abd c 0 ell m = if ell = 2 ∧ m = 2 then 1 else 0 := by
    intro ell hl m hm
    show ((lossy.abd.data c).getD 0 fun _ => 0) _ = _
    rw [h2]
    rw [Finset.mem_Icc] at hl hm
    obtain ⟨l1, l2⟩ := hl
    obtain ⟨m1, m2⟩ := hm
    unfold one22 Verif.Modes.lmIndex
    interval_cases ell <;> interval_cases m <;> norm_num
  have := Verif.Props.GridMultiply.single 2 2 2 (by norm_num) (by norm_num) (by norm_num) (by norm_num) s 1 (rotor θ φ)
  rw [one_mul] at this
  rw [← this]
  unfold Verif.Spec.Sphere.field Verif.GridMultiply.Spec.expansion
  exact Finset.sum_congr rfl fun ell hl => Finset.sum_congr rfl fun m hm => by rw [e ell hl m hm]

theorem lossy_violation (w w2 : List ℝ → Nat → Nat → ℝ) (θ φ : ℝ) : violation (Spec.Constraints.dataAt w w2 lossy.abd 0) 0 θ φ = -3 * (Y 2 2 2 (rotor θ φ) * Y 0 2 2 (rotor θ φ)) := by
  have h0 : (Spec.Constraints.dataAt w w2 lossy.abd 0).psi0Dot = fun _ _ => 0 := by
    funext ell m
    show (∑ j ∈ Finset.range lossy.abd.t.length, (w lossy.abd.t 0 j : ℂ) * mode lossy.abd 0 j ell m) = 0
    refine Finset.sum_eq_zero fun j _ => ?_
    rw [lossy_null 0 (.inl rfl), mul_zero]
  have h1 : (Spec.Constraints.dataAt w w2 lossy.abd 0).psi1 = fun _ _ => 0 := lossy_null 1 (.inr rfl) 0
  show field 2 0 2 (Spec.Constraints.dataAt w w2 lossy.abd 0).psi0Dot θ φ - (eth 1 (field 1 0 2 (Spec.Constraints.dataAt w w2 lossy.abd 0).psi1) θ φ + 3 * field 2 0 2 (mode lossy.abd 5 0) θ φ * field 0 0 2 (mode lossy.abd 2 0) θ φ) = _
  rw [h0, h1, field_null, field_null, lossy_one 5 (.inr rfl), lossy_one 2 (.inl rfl)]
  unfold Verif.Spec.Constraints.eth ethOp
  simp only [deriv_const, mul_zero, add_zero, sub_zero, neg_zero, zero_div]
  ring

/-- **C99** (refutation): not so with the truncator `max`. It is not handed on by `transform`, and so the norm of a violation that is zero before is not zero after the transformation that does nothing. -/
theorem truncator_lost : Good lossy.abd ∧ lossy.trunc = max ∧
    ∀ (spline : List (ℝ × ℂ) → ℝ → ℂ) (_ : Verif.AbdModes.Spec.Interpolates spline) (map2salm : List ℂ → Nat → Nat → Int → Int → Verif.Modes.Row ℂ) (_ : Verif.GridModes.Spec.Exact map2salm)
      (w w2 : List ℝ → Nat → Nat → ℝ) (_ : Derivative w) (_ : Derivative w2) (mul : Int → Int → Modes → Modes → Modes) (_ : IsProduct 2 mul),
      ∃ b, Constraints.transform spline map2salm lossy {} = .ok b ∧ ∃ n n' : Fin 6 → ℝ,
        bondiViolationNorms mul lossy.trunc (Spec.Constraints.dataAt w w2 lossy.abd 0) = .ok (List.ofFn n) ∧ bondiViolationNorms mul b.trunc (Spec.Constraints.dataAt w w2 b.abd 0) = .ok (List.ofFn n') ∧
        n 0 = 0 ∧ n' 0 ≠ 0 := by
  refine ⟨lossy_good, rfl, fun spline hs map2salm hE w w2 hd hd2 mul hmul => ?_⟩
  obtain ⟨b, e1, -, e2⟩ := norms_of_transform hs hE { abd := lossy.abd, trunc := (· + ·) } lossy_good rfl {} 0 1 ⟨rfl, rfl, rfl, rfl, .inl ⟨rfl, rfl⟩, .inl ⟨rfl, rfl⟩⟩ rfl rfl hd hd2 hmul
  obtain ⟨n, g1, g2⟩ := norms_truncated (d := Spec.Constraints.dataAt w w2 lossy.abd 0) hmul (trunc := max) (T := 2) (by rfl) (by exact le_rfl) (by show (2 : Int) ≤ 2 * 2; norm_num)
  obtain ⟨n', k1, k2⟩ := norms_spec (d := Spec.Constraints.dataAt w w2 lossy.abd 0) hmul
  refine ⟨b, e1, n, n', g1, (e2 0 (by show 0 < 2; norm_num)).trans k1, ?_, ?_⟩
  · have hz := (g2 0).2
    have h0 : ∑ ell ∈ Finset.Icc |spins 0| 2, ∑ m ∈ Finset.Icc (-ell) ell, Complex.normSq (solid fun θ φ => conj (Y (spins 0) ell m (rotor θ φ)) * violation (Spec.Constraints.dataAt w w2 lossy.abd 0) 0 θ φ) = 0 := by
      refine Finset.sum_eq_zero fun ell hl => Finset.sum_eq_zero fun m hm => ?_
      rw [Finset.mem_Icc] at hl hm
      simp only [lossy_violation]
      rw [azimuthal hl.1 (abs_le.2 hm) (by norm_num) (by norm_num) (by norm_num) (by norm_num) (by omega), map_zero]
    rw [h0] at hz
    exact (pow_eq_zero_iff two_ne_zero).1 hz
  · intro hz
    have := (k2 0).2.2.1 hz (Real.pi / 2) 0 (by positivity) (by linarith [Real.pi_pos])
    rw [lossy_violation] at this
    have h3 : (-3 : ℂ) ≠ 0 := by norm_num
    exact (mul_ne_zero h3 (mul_ne_zero Y222_ne Y022_ne)) this

end

/-- The hypotheses can be met. -/
example : (∃ s, Verif.AbdModes.Spec.Interpolates s) ∧ (∃ m, Verif.GridModes.Spec.Exact m) ∧ Verif.Spec.ChargeCov.Derivative Verif.Props.ChargeCov.forward ∧ ∀ L, ∃ mul, IsProduct L mul :=
  ⟨Verif.Props.AbdModes.interpolates_exists, Verif.Props.GridModes.exact_exists, Verif.Props.ChargeCov.forward_derivative, fun _ => ⟨_, fun _ _ _ _ _ _ _ _ => rfl⟩⟩

end Verif.Props.Constraints
