import Verif.Lemmas.Balance

/-!
# The integrals in the balance of charges and fluxes, and the relations between them
-/

namespace Verif.Balance
open Verif.GridMultiply Verif.Spec.Sphere Verif.Spec.SphereOps Verif.Spec.Boost Verif.Spec.Balance Verif.SphereParts Verif.Props.SphereOps Verif.Charges ComplexConjugate

/-! ## Functions without the modes below 2 -/

theorem field_from_two (s b : Int) (f : Modes) (h : ∀ ell m θ φ, ell < 2 → f ell m * Y s ell m (rotor θ φ) = 0) : field s 0 b f = field s 2 b f := by
  funext θ φ
  unfold field
  symm
  refine Finset.sum_subset (fun x hx => ?_) fun x hx hx' => ?_
  · rw [Finset.mem_Icc] at hx ⊢
    omega
  · rw [Finset.mem_Icc] at hx hx'
    exact Finset.sum_eq_zero fun m _ => h x m θ φ (by omega)

theorem field_two (s b : Int) (hs : 2 ≤ |s|) (f : Modes) : field s 0 b f = field s 2 b f :=
  field_from_two s b f fun ell m θ φ h => by rw [Verif.SphereDeriv.Y_zero (by omega), mul_zero]

theorem field_eth_two (b : Int) (f : Modes) : field (-1) 0 b (eth (-2) f) = field (-1) 2 b (eth (-2) f) := by
  refine field_from_two _ b _ fun ell m θ φ h => ?_
  by_cases h1 : ell = 1
  · subst h1
    unfold eth
    norm_num
  · rw [Verif.SphereDeriv.Y_zero (by simp only [abs_neg, abs_one]; omega), mul_zero]

/-! ## Conjugates -/

theorem bar_bar (s : Int) (f : Modes) : bar (-s) (bar s f) = f := by
  funext ell m
  unfold bar
  rw [map_mul, Complex.conj_conj, neg_neg, map_pow, map_neg, map_one, ← mul_assoc, show (-s + m).natAbs = (s + -m).natAbs by omega, ← pow_add, Even.neg_one_pow ⟨_, rfl⟩, one_mul]

theorem conj_bar (s a b : Int) (f : Modes) (θ φ : ℝ) : conj (field (-s) a b (bar s f) θ φ) = field s a b f θ φ := by
  rw [← field_conj, Complex.conj_conj]

theorem conj_eth_bar (a b : Int) (f : Modes) (θ φ : ℝ) : conj (field (-1) a b (eth (-2) (bar 2 f)) θ φ) = field 1 a b (ethbar 2 f) θ φ := by
  have h := conj_eth (-2) a b (bar 2 f) θ φ
  rw [show ((-2 : Int) + 1) = -1 by norm_num, neg_neg, neg_neg] at h
  rw [h]
  have := bar_bar 2 f
  rw [this]

theorem conj_ethbar_bar (a b : Int) (f : Modes) (θ φ : ℝ) : conj (field (-3) a b (ethbar (-2) (bar 2 f)) θ φ) = field 3 a b (eth 2 f) θ φ := by
  have h := conj_eth 2 a b f θ φ
  rw [show ((2 : Int) + 1) = 3 by norm_num] at h
  rw [← h, Complex.conj_conj]

theorem conj_chi (i : Fin 3) (θ φ : ℝ) : conj (field 0 1 1 (chi i) θ φ) = field 0 1 1 (chi i) θ φ := (Verif.Props.BoostFlux.chi_conj i _).1
theorem conj_ethchi (i : Fin 3) (θ φ : ℝ) : conj (field 1 1 1 (eth 0 (chi i)) θ φ) = field (-1) 1 1 (ethbar 0 (chi i)) θ φ := (Verif.Props.BoostFlux.chi_conj i _).2
theorem conj_ethbarchi (i : Fin 3) (θ φ : ℝ) : conj (field (-1) 1 1 (ethbar 0 (chi i)) θ φ) = field 1 1 1 (eth 0 (chi i)) θ φ := by rw [← conj_ethchi, Complex.conj_conj]

/-! ## The integrals -/

section
variable (i : Fin 3) (b : Int) (S S' : Modes)

noncomputable def intA : ℂ := solid fun θ φ => field 0 1 1 (chi i) θ φ * field 2 2 b S θ φ * field (-2) 2 b (bar 2 S') θ φ
noncomputable def intB : ℂ := solid fun θ φ => field (-1) 1 1 (ethbar 0 (chi i)) θ φ * field 2 2 b S' θ φ * field (-1) 2 b (eth (-2) (bar 2 S)) θ φ
noncomputable def intE : ℂ := solid fun θ φ => field 1 1 1 (eth 0 (chi i)) θ φ * field 2 2 b S' θ φ * field (-3) 2 b (ethbar (-2) (bar 2 S)) θ φ
noncomputable def intG : ℂ := solid fun θ φ => field 1 1 1 (eth 0 (chi i)) θ φ * field 1 2 b (ethbar 2 S') θ φ * field (-2) 2 b (bar 2 S) θ φ
noncomputable def intX1 : ℂ := solid fun θ φ => field 0 1 1 (chi i) θ φ * field 3 2 b (eth 2 S') θ φ * field (-3) 2 b (ethbar (-2) (bar 2 S)) θ φ
noncomputable def intX2 : ℂ := solid fun θ φ => field 0 1 1 (chi i) θ φ * field 1 2 b (ethbar 2 S') θ φ * field (-1) 2 b (eth (-2) (bar 2 S)) θ φ

theorem C3 {s1 s2 s3 a1 b1 a2 b2 a3 b3 : Int} {f1 f2 f3 : Modes} : C fun θ φ => field s1 a1 b1 f1 θ φ * field s2 a2 b2 f2 θ φ * field s3 a3 b3 f3 θ φ :=
  ((C.field s1 a1 b1 f1).mul (C.field s2 a2 b2 f2)).mul (C.field s3 a3 b3 f3)

theorem conj_A : conj (intA i b S S') = intA i b S' S := by
  unfold intA
  rw [← solid_conj C3]
  congr 1
  funext θ φ
  rw [map_mul, map_mul, conj_chi, field_conj]
  have := conj_bar 2 2 b S' θ φ
  rw [this]
  ring

theorem conj_B : conj (intB i b S' S) = intG i b S S' := by
  unfold intB intG
  rw [← solid_conj C3]
  congr 1
  funext θ φ
  rw [map_mul, map_mul, conj_ethbarchi, field_conj, conj_eth_bar]
  ring

theorem ethbar_eth_chi (θ φ : ℝ) : field 0 1 1 (ethbar 1 (eth 0 (chi i))) θ φ = -2 * field 0 1 1 (chi i) θ φ := by
  rw [← field_const]
  refine field_congr _ _ _ _ _ θ φ fun ell m h1 h2 _ _ => ?_
  obtain rfl : ell = 1 := by omega
  congr 1
  have : (√2 : ℂ) * (√2 : ℂ) = 2 := by
    rw [← Complex.ofReal_mul, Real.mul_self_sqrt (by norm_num)]
    norm_num
  unfold ethbar
  rw [Verif.Props.BoostFlux.eth_one]
  norm_num
  linear_combination (chi i 1 m) * this

theorem relE : intE i b S S' + intG i b S S' = 2 * intA i b S' S := by
  have h := (parts 1 2 (-2) 1 1 2 b 2 b (eth 0 (chi i)) S' (bar 2 S)).2 (by norm_num)
  norm_num at h
  simp only [ethbar_eth_chi] at h
  have e : (fun θ φ => -2 * field 0 1 1 (chi i) θ φ * field 2 2 b S' θ φ * field (-2) 2 b (bar 2 S) θ φ
      + field 1 1 1 (eth 0 (chi i)) θ φ * field 1 2 b (ethbar 2 S') θ φ * field (-2) 2 b (bar 2 S) θ φ
      + field 1 1 1 (eth 0 (chi i)) θ φ * field 2 2 b S' θ φ * field (-3) 2 b (ethbar (-2) (bar 2 S)) θ φ) = fun θ φ =>
      -2 * (field 0 1 1 (chi i) θ φ * field 2 2 b S' θ φ * field (-2) 2 b (bar 2 S) θ φ)
      + field 1 1 1 (eth 0 (chi i)) θ φ * field 1 2 b (ethbar 2 S') θ φ * field (-2) 2 b (bar 2 S) θ φ
      + field 1 1 1 (eth 0 (chi i)) θ φ * field 2 2 b S' θ φ * field (-3) 2 b (ethbar (-2) (bar 2 S)) θ φ := by
    funext θ φ
    ring
  rw [e, solid_add ((C3.const _).add C3) C3, solid_add (C3.const _) C3, solid_const] at h
  unfold intE intG intA
  linear_combination h

/-- `ðð̄ - ð̄ð = 4` on functions of spin weight -2. -/
theorem commutator (f : Modes) (θ φ : ℝ) : field (-2) 2 b (eth (-3) (ethbar (-2) f)) θ φ = field (-2) 2 b (ethbar (-1) (eth (-2) f)) θ φ + 4 * field (-2) 2 b f θ φ := by
  rw [← field_const, ← Verif.Props.AngMomIntegral.field_sum]
  refine field_congr _ _ _ _ _ θ φ fun ell m h1 h2 _ _ => ?_
  congr 1
  unfold eth ethbar
  have hl : (2 : ℝ) ≤ ell := by exact_mod_cast h1
  push_cast
  rw [show ((ell : ℝ) - -3) * (ell + -3 + 1) = (ell + 3) * (ell - 2) by ring, show ((ell : ℝ) + -2) * (ell - -2 + 1) = (ell + 3) * (ell - 2) by ring,
    show ((ell : ℝ) + -1) * (ell - -1 + 1) = (ell + 2) * (ell - 1) by ring, show ((ell : ℝ) - -2) * (ell + -2 + 1) = (ell + 2) * (ell - 1) by ring]
  have e1 : ((√((ell + 3) * (ell - 2)) : ℝ) : ℂ) * ((√((ell + 3) * (ell - 2)) : ℝ) : ℂ) = (ell + 3) * (ell - 2) := by
    rw [← Complex.ofReal_mul, Real.mul_self_sqrt (mul_nonneg (by linarith) (by linarith))]
    push_cast
    ring
  have e2 : ((√((ell + 2) * (ell - 1)) : ℝ) : ℂ) * ((√((ell + 2) * (ell - 1)) : ℝ) : ℂ) = (ell + 2) * (ell - 1) := by
    rw [← Complex.ofReal_mul, Real.mul_self_sqrt (mul_nonneg (by linarith) (by linarith))]
    push_cast
    ring
  linear_combination (-f ell m) * e1 + f ell m * e2

theorem relX : intX1 i b S S' - intX2 i b S S' = intB i b S S' - intE i b S S' - 4 * intA i b S' S := by
  have h1 := (parts 0 2 (-3) 1 1 2 b 2 b (chi i) S' (ethbar (-2) (bar 2 S))).1 (by norm_num)
  have h2 := (parts 0 2 (-1) 1 1 2 b 2 b (chi i) S' (eth (-2) (bar 2 S))).2 (by norm_num)
  norm_num at h1 h2
  simp only [commutator] at h1
  have e : (fun θ φ => field 1 1 1 (eth 0 (chi i)) θ φ * field 2 2 b S' θ φ * field (-3) 2 b (ethbar (-2) (bar 2 S)) θ φ
      + field 0 1 1 (chi i) θ φ * field 3 2 b (eth 2 S') θ φ * field (-3) 2 b (ethbar (-2) (bar 2 S)) θ φ
      + field 0 1 1 (chi i) θ φ * field 2 2 b S' θ φ * (field (-2) 2 b (ethbar (-1) (eth (-2) (bar 2 S))) θ φ + 4 * field (-2) 2 b (bar 2 S) θ φ)) = fun θ φ =>
      field 1 1 1 (eth 0 (chi i)) θ φ * field 2 2 b S' θ φ * field (-3) 2 b (ethbar (-2) (bar 2 S)) θ φ
      + field 0 1 1 (chi i) θ φ * field 3 2 b (eth 2 S') θ φ * field (-3) 2 b (ethbar (-2) (bar 2 S)) θ φ
      + field 0 1 1 (chi i) θ φ * field 2 2 b S' θ φ * field (-2) 2 b (ethbar (-1) (eth (-2) (bar 2 S))) θ φ
      + 4 * (field 0 1 1 (chi i) θ φ * field 2 2 b S' θ φ * field (-2) 2 b (bar 2 S) θ φ) := by
    funext θ φ
    ring
  rw [e, solid_add ((C3.add C3).add C3) (C3.const _), solid_add (C3.add C3) C3, solid_add C3 C3, solid_const] at h1
  rw [solid_add (C3.add C3) C3, solid_add C3 C3] at h2
  unfold intE intX1 intX2 intB intA
  linear_combination h1 - h2

end

/-! ## The generators of rotations -/

/-- `ð` of the components of the unit vector. -/
noncomputable def ethN (i : Fin 3) (θ φ : ℝ) : ℂ :=
  if i = 0 then -(Real.cos θ : ℝ) * (Real.cos φ : ℝ) + Complex.I * (Real.sin φ : ℝ) else if i = 1 then -(Real.cos θ : ℝ) * (Real.sin φ : ℝ) - Complex.I * (Real.cos φ : ℝ) else (Real.sin θ : ℝ)

theorem nHat_deriv (i : Fin 3) (θ φ : ℝ) :
    deriv (fun x => ((nHat i x φ : ℝ) : ℂ)) θ = (if i = 0 then ((Real.cos θ : ℝ) : ℂ) * (Real.cos φ : ℝ) else if i = 1 then (Real.cos θ : ℝ) * (Real.sin φ : ℝ) else -(Real.sin θ : ℝ)) ∧
    deriv (fun x => ((nHat i θ x : ℝ) : ℂ)) φ = (if i = 0 then -((Real.sin θ : ℝ) : ℂ) * (Real.sin φ : ℝ) else if i = 1 then (Real.sin θ : ℝ) * (Real.cos φ : ℝ) else 0) := by
  unfold nHat
  fin_cases i
  · constructor
    · have h : HasDerivAt (fun x => ((Real.sin x * Real.cos φ : ℝ) : ℂ)) ((Real.cos θ * Real.cos φ : ℝ) : ℂ) θ := ((Real.hasDerivAt_sin θ).mul_const _).ofReal_comp
      refine Eq.trans h.deriv ?_
      push_cast
      rfl
    · have h : HasDerivAt (fun x => ((Real.sin θ * Real.cos x : ℝ) : ℂ)) ((Real.sin θ * -Real.sin φ : ℝ) : ℂ) φ := ((Real.hasDerivAt_cos φ).const_mul _).ofReal_comp
      refine Eq.trans h.deriv ?_
      push_cast
      show _ = -Complex.sin (θ : ℂ) * Complex.sin φ
      ring
  · constructor
    · have h : HasDerivAt (fun x => ((Real.sin x * Real.sin φ : ℝ) : ℂ)) ((Real.cos θ * Real.sin φ : ℝ) : ℂ) θ := ((Real.hasDerivAt_sin θ).mul_const _).ofReal_comp
      refine Eq.trans h.deriv ?_
      push_cast
      rfl
    · have h : HasDerivAt (fun x => ((Real.sin θ * Real.sin x : ℝ) : ℂ)) ((Real.sin θ * Real.cos φ : ℝ) : ℂ) φ := ((Real.hasDerivAt_sin φ).const_mul _).ofReal_comp
      refine Eq.trans h.deriv ?_
      push_cast
      rfl
  · constructor
    · have h : HasDerivAt (fun x => ((Real.cos x : ℝ) : ℂ)) ((-Real.sin θ : ℝ) : ℂ) θ := (Real.hasDerivAt_cos θ).ofReal_comp
      refine Eq.trans h.deriv ?_
      push_cast
      rfl
    · have h : HasDerivAt (fun _ : ℝ => ((Real.cos θ : ℝ) : ℂ)) 0 φ := hasDerivAt_const φ _
      exact h.deriv

theorem eth_nHat (i : Fin 3) (θ φ : ℝ) (hθ : Real.sin θ ≠ 0) : field 1 1 1 (eth 0 (chi i)) θ φ = ethN i θ φ ∧ field (-1) 1 1 (ethbar 0 (chi i)) θ φ = conj (ethN i θ φ) := by
  have h : field 1 1 1 (eth 0 (chi i)) θ φ = ethN i θ φ := by
    have h := (eth_differential 0 1 1 (chi i) θ φ hθ).1
    have e : field 0 1 1 (chi i) = fun θ φ => ((nHat i θ φ : ℝ) : ℂ) := by
      funext θ φ
      exact Verif.Props.BoostFlux.chi_field i θ φ
    rw [e] at h
    refine Eq.trans h ?_
    unfold ethOp
    rw [(nHat_deriv i θ φ).1, (nHat_deriv i θ φ).2]
    have hs : ((Real.sin θ : ℝ) : ℂ) ≠ 0 := by exact_mod_cast hθ
    unfold ethN
    generalize ((Real.sin θ : ℝ) : ℂ) = sθ at *
    fin_cases i
    · simp only [Fin.zero_eta, if_true, Int.cast_zero, zero_mul, sub_zero]
      field_simp
      ring
    · simp only [Fin.mk_one, one_ne_zero, if_false, if_true, Int.cast_zero, zero_mul, sub_zero]
      field_simp
      ring
    · simp only [Fin.reduceFinMk, Fin.reduceEq, if_false, Int.cast_zero, zero_mul, sub_zero, mul_zero, add_zero, neg_neg]
  exact ⟨h, by rw [← conj_ethchi, h]⟩

/-- The generators of rotations in terms of `ð` and `ð̄`. -/
theorem L_eth (i : Fin 3) (s a b : Int) (f : Modes) (θ φ : ℝ) (hθ : Real.sin θ ≠ 0) :
    field s a b (Verif.Spec.AngMom.L i f) θ φ = 1 / 2 * (field (-1) 1 1 (ethbar 0 (chi i)) θ φ * field (s + 1) a b (eth s f) θ φ - field 1 1 1 (eth 0 (chi i)) θ φ * field (s - 1) a b (ethbar s f) θ φ)
      - s * field 0 1 1 (chi i) θ φ * field s a b f θ φ := by
  rw [Verif.Props.AngMomIntegral.L_differential i s a b f θ φ hθ, (eth_differential s a b f θ φ hθ).1, (eth_differential s a b f θ φ hθ).2, (eth_nHat i θ φ hθ).1, (eth_nHat i θ φ hθ).2, Verif.Props.BoostFlux.chi_field]
  unfold LOp ethOp ethbarOp ethN nHat
  generalize field s a b f θ φ = F
  generalize deriv (fun x => field s a b f x φ) θ = D
  generalize deriv (fun x => field s a b f θ x) φ = E
  have hs : ((Real.sin θ : ℝ) : ℂ) ≠ 0 := by exact_mod_cast hθ
  have h1 : ((Real.sin θ : ℝ) : ℂ) ^ 2 + ((Real.cos θ : ℝ) : ℂ) ^ 2 = 1 := by exact_mod_cast Real.sin_sq_add_cos_sq θ
  have hI := Complex.I_sq
  fin_cases i
  · simp only [Fin.zero_eta, if_true, map_add, map_mul, map_neg, Complex.conj_ofReal, Complex.conj_I, Complex.ofReal_mul]
    generalize ((Real.sin θ : ℝ) : ℂ) = x at *
    generalize ((Real.cos θ : ℝ) : ℂ) = y at *
    generalize ((Real.sin φ : ℝ) : ℂ) = z at *
    generalize ((Real.cos φ : ℝ) : ℂ) = w at *
    field_simp
    linear_combination (2 * s * F * w) * h1
  · simp only [Fin.mk_one, one_ne_zero, if_false, if_true, map_sub, map_add, map_mul, map_neg, Complex.conj_ofReal, Complex.conj_I, Complex.ofReal_mul]
    generalize ((Real.sin θ : ℝ) : ℂ) = x at *
    generalize ((Real.cos θ : ℝ) : ℂ) = y at *
    generalize ((Real.sin φ : ℝ) : ℂ) = z at *
    generalize ((Real.cos φ : ℝ) : ℂ) = w at *
    field_simp
    linear_combination (2 * s * F * z) * h1
  · simp only [Fin.reduceFinMk, Fin.reduceEq, if_false, Complex.conj_ofReal]
    generalize ((Real.sin θ : ℝ) : ℂ) = x at *
    generalize ((Real.cos θ : ℝ) : ℂ) = y at *
    field_simp
    ring

end Verif.Balance
