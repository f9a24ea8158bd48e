import Verif.Props.SphereOps
import Verif.Props.AngMomCov
import Verif.Props.FluxIntegral

/-!
# C68: angular-momentum sums and fluxes are integrals over the sphere
-/

namespace Verif.Props.AngMomIntegral
open Verif.Modes Verif.ModeCalc Verif.SphereDeriv Verif.GridMultiply Verif.Spec.Sphere Verif.Spec.SphereOps Verif.Spec.AngMom Verif.Props.SphereOps Verif.Props.ModeCalc Verif.Spec.Slicing
open Verif.Slicing
open Finset ComplexConjugate

/-- The modes with raised `m`, in terms of the derivatives of the harmonics. -/
theorem field_raise (s a b : Int) (f : Fn) (θ φ : ℝ) :
    field s a b (raise f) θ φ = Complex.exp (φ * Complex.I) * ∑ ell ∈ Icc a b, ∑ m ∈ Icc (-ell) ell, f ell m * UY s ell m θ φ := by
  unfold field
  rw [mul_sum]
  refine sum_congr rfl fun ell _ => ?_
  rw [mul_sum]
  have h := shift_up ell 1 (by norm_num) (fun m => raise f ell m * Y s ell m (rotor θ φ)) (by
    intro m h1 h2 _
    have : m = -ell := by omega
    subst this
    simp only [raise_eq, ladder_bot, Complex.ofReal_zero, zero_mul])
  rw [← h]
  refine sum_congr rfl fun m hm => ?_
  rw [mem_Icc] at hm
  have hexp : Complex.exp (φ * Complex.I) * Complex.exp (-(φ * Complex.I)) = 1 := by rw [← Complex.exp_add, add_neg_cancel, Complex.exp_zero]
  unfold UY
  by_cases hl : m + 1 ≤ ell
  · rw [if_pos hl]
    unfold raise
    rw [show m + 1 - 1 = m by ring, show ((ell : ℝ) - ((m + 1 : Int) : ℝ) + 1) * (ell + ((m + 1 : Int) : ℝ)) = (ell - m) * (ell + m + 1) by push_cast; ring]
    linear_combination (-(f ell m * ((√(((ell : ℝ) - m) * (ell + m + 1)) : ℝ) : ℂ) * Y s ell (m + 1) (rotor θ φ))) * hexp
  · rw [if_neg hl]
    have : m = ell := by omega
    subst this
    simp

/-- The modes with lowered `m`. -/
theorem field_lower (s a b : Int) (f : Fn) (θ φ : ℝ) :
    field s a b (lower f) θ φ = Complex.exp (-(φ * Complex.I)) * ∑ ell ∈ Icc a b, ∑ m ∈ Icc (-ell) ell, f ell m * DY s ell m θ φ := by
  unfold field
  rw [mul_sum]
  refine sum_congr rfl fun ell _ => ?_
  rw [mul_sum]
  have h := shift_down ell 1 (by norm_num) (fun m => lower f ell m * Y s ell m (rotor θ φ)) (by
    intro m _ h2 h3
    have : m = ell := by omega
    subst this
    simp only [lower_eq, ladder_top, Complex.ofReal_zero, zero_mul])
  rw [← h]
  refine sum_congr rfl fun m hm => ?_
  rw [mem_Icc] at hm
  have hexp : Complex.exp (φ * Complex.I) * Complex.exp (-(φ * Complex.I)) = 1 := by rw [← Complex.exp_add, add_neg_cancel, Complex.exp_zero]
  unfold DY
  by_cases hl : m - 1 ≥ -ell
  · rw [if_pos hl]
    unfold lower
    rw [show m - 1 + 1 = m by ring, show ((ell : ℝ) + ((m - 1 : Int) : ℝ) + 1) * (ell - ((m - 1 : Int) : ℝ)) = (ell + m) * (ell - m + 1) by push_cast; ring]
    linear_combination (-(f ell m * ((√(((ell : ℝ) + m) * (ell - m + 1)) : ℝ) : ℂ) * Y s ell (m - 1) (rotor θ φ))) * hexp
  · rw [if_neg hl]
    have : m = -ell := by omega
    subst this
    simp

/-- C68: the action of the operators `L_x`, `L_y`, `L_z` on the modes is that of the generators of rotations on the function. -/
theorem L_differential (i : Fin 3) (s a b : Int) (f : Fn) (θ φ : ℝ) (hθ : Real.sin θ ≠ 0) :
    field s a b (L i f) θ φ = LOp i s (field s a b f) θ φ := by
  obtain ⟨_, h2⟩ := field_derivatives s a b f θ φ
  have e2 : field s a b (fun ell m => Complex.I * m * f ell m) θ φ = Complex.I * field s a b (fun ell m => (m : ℂ) * f ell m) θ φ := by
    rw [← field_const]
    simp only [mul_assoc]
  rw [e2] at h2
  have h1 : HasDerivAt (fun x => field s a b f x φ) (∑ ell ∈ Icc a b, ∑ m ∈ Icc (-ell) ell, f ell m * (1 / 2 * (UY s ell m θ φ - DY s ell m θ φ))) θ := by
    refine HasDerivAt.fun_sum fun ell _ => HasDerivAt.fun_sum fun m hm => ?_
    rw [mem_Icc] at hm
    exact (Y_theta_L s ell m hm.1 hm.2 θ φ).const_mul _
  have s1 : ∑ ell ∈ Icc a b, ∑ m ∈ Icc (-ell) ell, f ell m * (1 / 2 * (UY s ell m θ φ - DY s ell m θ φ)) =
      1 / 2 * (∑ ell ∈ Icc a b, ∑ m ∈ Icc (-ell) ell, f ell m * UY s ell m θ φ - ∑ ell ∈ Icc a b, ∑ m ∈ Icc (-ell) ell, f ell m * DY s ell m θ φ) := by
    rw [← sum_sub_distrib, mul_sum]
    refine sum_congr rfl fun ell _ => ?_
    rw [← sum_sub_distrib, mul_sum]
    refine sum_congr rfl fun m _ => ?_
    ring
  have s2 : -(s * field s a b f θ φ + (Real.cos θ : ℝ) * field s a b (fun ell m => (m : ℂ) * f ell m) θ φ) =
      1 / 2 * (Real.sin θ : ℝ) * (∑ ell ∈ Icc a b, ∑ m ∈ Icc (-ell) ell, f ell m * UY s ell m θ φ + ∑ ell ∈ Icc a b, ∑ m ∈ Icc (-ell) ell, f ell m * DY s ell m θ φ) := by
    unfold field
    rw [← sum_add_distrib, mul_sum, mul_sum, mul_sum, ← sum_add_distrib, ← sum_neg_distrib]
    refine sum_congr rfl fun ell _ => ?_
    rw [← sum_add_distrib, mul_sum, mul_sum, mul_sum, ← sum_add_distrib, ← sum_neg_distrib]
    refine sum_congr rfl fun m hm => ?_
    rw [mem_Icc] at hm
    linear_combination f ell m * Y_sum_m s ell m hm.1 hm.2 θ φ
  rw [s1] at h1
  have r := field_raise s a b f θ φ
  have l := field_lower s a b f θ φ
  generalize (∑ ell ∈ Icc a b, ∑ m ∈ Icc (-ell) ell, f ell m * UY s ell m θ φ) = U at *
  generalize (∑ ell ∈ Icc a b, ∑ m ∈ Icc (-ell) ell, f ell m * DY s ell m θ φ) = D at *
  have ep : Complex.exp (φ * Complex.I) = (Real.cos φ : ℝ) + (Real.sin φ : ℝ) * Complex.I := by
    rw [Complex.exp_mul_I, Complex.ofReal_cos, Complex.ofReal_sin]
  have em : Complex.exp (-(φ * Complex.I)) = (Real.cos φ : ℝ) - (Real.sin φ : ℝ) * Complex.I := by
    rw [← neg_mul, Complex.exp_mul_I, Complex.cos_neg, Complex.sin_neg, Complex.ofReal_cos, Complex.ofReal_sin]; ring
  rw [ep] at r
  rw [em] at l
  have hs : ((Real.sin θ : ℝ) : ℂ) ≠ 0 := by exact_mod_cast hθ
  have hI := Complex.I_mul_I
  have lx : field s a b (L 0 f) θ φ = (field s a b (raise f) θ φ + field s a b (lower f) θ φ) / 2 := by
    unfold field
    rw [← sum_add_distrib, sum_div]
    refine sum_congr rfl fun ell _ => ?_
    rw [← sum_add_distrib, sum_div]
    refine sum_congr rfl fun m _ => ?_
    simp only [L, if_pos]
    ring
  have ly : field s a b (L 1 f) θ φ = (field s a b (raise f) θ φ - field s a b (lower f) θ φ) / (2 * Complex.I) := by
    unfold field
    rw [← sum_sub_distrib, sum_div]
    refine sum_congr rfl fun ell _ => ?_
    rw [← sum_sub_distrib, sum_div]
    refine sum_congr rfl fun m _ => ?_
    rw [show L 1 f ell m = (raise f ell m - lower f ell m) / (2 * Complex.I) from rfl]
    ring
  have lz : field s a b (L 2 f) θ φ = field s a b (fun ell m => (m : ℂ) * f ell m) θ φ := rfl
  unfold LOp
  rw [h1.deriv, h2.deriv]
  generalize field s a b (fun ell m => (m : ℂ) * f ell m) θ φ = M at *
  generalize field s a b f θ φ = F at *
  have key : (U + D) / 2 = -(s * F + (Real.cos θ : ℝ) * M) / (Real.sin θ : ℝ) := by
    rw [s2]; field_simp
  fin_cases i
  · show field s a b (L 0 f) θ φ = _
    rw [if_pos (by rfl), lx, r, l]
    have : (((Real.cos φ : ℝ) + (Real.sin φ : ℝ) * Complex.I) * U + ((Real.cos φ : ℝ) - (Real.sin φ : ℝ) * Complex.I) * D) / 2 =
        (Real.cos φ : ℝ) * ((U + D) / 2) + (Real.sin φ : ℝ) * Complex.I * ((U - D) / 2) := by ring
    rw [this, key]
    field_simp
    linear_combination (-2 * (Real.cos θ : ℝ) * (Real.cos φ : ℝ) * M) * hI
  · show field s a b (L 1 f) θ φ = _
    rw [if_neg (by decide), if_pos (by rfl), ly, r, l]
    have : (((Real.cos φ : ℝ) + (Real.sin φ : ℝ) * Complex.I) * U - ((Real.cos φ : ℝ) - (Real.sin φ : ℝ) * Complex.I) * D) / (2 * Complex.I) =
        (Real.sin φ : ℝ) * ((U + D) / 2) - Complex.I * (Real.cos φ : ℝ) * ((U - D) / 2) := by
      rw [div_eq_iff (by simp)]
      linear_combination (Real.cos φ : ℝ) * (U - D) * hI
    rw [this, key]
    field_simp
    linear_combination (-2 * (Real.cos θ : ℝ) * (Real.sin φ : ℝ) * M) * hI
  · show field s a b (L 2 f) θ φ = _
    rw [if_neg (by decide), if_neg (by decide), lz]
    linear_combination M * hI

/-- The differential operators depend only on the values away from the poles. -/
theorem LOp_congr (i : Fin 3) (s : Int) {F G : ℝ → ℝ → ℂ} (h : ∀ θ φ, Real.sin θ ≠ 0 → F θ φ = G θ φ) (θ φ : ℝ) (hθ : Real.sin θ ≠ 0) :
    LOp i s F θ φ = LOp i s G θ φ := by
  obtain ⟨h1, h2⟩ := deriv_congr h θ φ hθ
  unfold LOp
  rw [h1, h2, h θ φ hθ]

/-- C68: matrix elements of `L_i` are integrals over the sphere. -/
theorem inner_L_integral (i : Fin 3) (s a b : Int) (hs : |s| ≤ a) (f g : Fn) :
    Verif.Spec.AngMom.inner a b f (L i g) = solid (fun θ φ => conj (field s a b f θ φ) * LOp i s (field s a b g) θ φ) := by
  rw [← FluxIntegral.parseval s a b hs]
  exact solid_congr fun θ φ hθ => by rw [L_differential i s a b g θ φ hθ]

theorem inner_LL_integral (i j : Fin 3) (s a b : Int) (hs : |s| ≤ a) (f g : Fn) :
    Verif.Spec.AngMom.inner a b f (L i (L j g)) = solid (fun θ φ => conj (field s a b f θ φ) * LOp i s (LOp j s (field s a b g)) θ φ) := by
  rw [inner_L_integral i s a b hs]
  refine solid_congr fun θ φ hθ => ?_
  rw [LOp_congr i s (fun θ φ hθ => L_differential j s a b g θ φ hθ) θ φ hθ]

/-- C68: component `i` of `LVector` is the integral of `conj(f) L_i g`. -/
theorem LVector_integral (s a b : Int) (hs : |s| ≤ a) (d1 d2 : Row ℂ) (i : Fin 3) :
    comp (LVector d1 d2 (LMRange a b)) i = solid (fun θ φ => conj (field s a b (modes a d1) θ φ) * LOp i s (field s a b (modes a d2)) θ φ) := by
  rw [LVector_comp a b ((abs_nonneg s).trans hs), inner_L_integral i s a b hs]
  rfl

/-- C68: component `i` of `LdtVector` is the imaginary part of the integral of `conj(f) L_i ∂f/∂t`. -/
theorem LdtVector_integral (s a b : Int) (hs : |s| ≤ a) (d dd : Row ℂ) (i : Fin 3) :
    comp (LdtVector d dd (LMRange a b)) i = (solid (fun θ φ => conj (field s a b (modes a d) θ φ) * LOp i s (field s a b (modes a dd)) θ φ)).im := by
  rw [LdtVector_spec a b ((abs_nonneg s).trans hs), inner_L_integral i s a b hs]
  rfl

/-- C68: the entries of `LLMatrix` are the real parts of the integrals of `conj(f) L_i L_j f`. -/
theorem LLMatrix_integral (s a b : Int) (hs : |s| ≤ a) (d : Row ℂ) (i j : Fin 3) :
    LLMatrix d (LMRange a b) i j = (solid (fun θ φ => conj (field s a b (modes a d) θ φ) * LOp i s (LOp j s (field s a b (modes a d))) θ φ)).re := by
  rw [LLMatrix_spec a b ((abs_nonneg s).trans hs), inner_LL_integral i j s a b hs]
  rfl

theorem field_sum (s a b : Int) (f g : Fn) (θ φ : ℝ) : field s a b (fun e m => f e m + g e m) θ φ = field s a b f θ φ + field s a b g θ φ := by
  unfold field
  simp only [add_mul, sum_add_distrib]

/-- C68: the rate of change that `angular_velocity` minimises is the integral of `|∂f/∂t + i w·L f|²`. -/
theorem change_integral (s a b : Int) (hs : |s| ≤ a) (f fdot : Fn) (w : Fin 3 → ℝ) :
    ((change a b f fdot w : ℝ) : ℂ) = solid (fun θ φ => (Complex.normSq (field s a b fdot θ φ + Complex.I * ∑ i, (w i : ℂ) * LOp i s (field s a b f) θ φ) : ℝ)) := by
  have e : ((change a b f fdot w : ℝ) : ℂ) = Verif.Spec.AngMom.inner a b (fun e m => fdot e m + Complex.I * vL w f e m) (fun e m => fdot e m + Complex.I * vL w f e m) := by
    unfold change
    have := inner_conj a b (fun e m => fdot e m + Complex.I * vL w f e m) (fun e m => fdot e m + Complex.I * vL w f e m)
    exact Complex.conj_eq_iff_re.1 this
  rw [e, ← FluxIntegral.parseval s a b hs]
  refine solid_congr fun θ φ hθ => ?_
  rw [← Complex.normSq_eq_conj_mul_self]
  have k : field s a b (fun e m => fdot e m + Complex.I * vL w f e m) θ φ = field s a b fdot θ φ + Complex.I * ∑ i, (w i : ℂ) * LOp i s (field s a b f) θ φ := by
    rw [field_sum, field_const]
    congr 2
    unfold vL
    simp only [Fin.sum_univ_three]
    rw [field_sum, field_sum, field_const, field_const, field_const, L_differential 0 s a b f θ φ hθ, L_differential 1 s a b f θ φ hθ, L_differential 2 s a b f θ φ hθ]
  rw [k]

/-- C68: among all angular velocities, the result of `angular_velocity` makes the integral over the sphere of `|∂f/∂t + i w·L f|²` least. -/
theorem angular_velocity_integral (s a b : Int) (hs : |s| ≤ a) (d dd : Row ℂ) (solve : Mat ℝ → (Fin 3 → ℝ) → Py (Fin 3 → ℝ))
    (hsolve : ∀ A l x, solve A l = .ok x → ∀ i, ∑ j, A i j * x j = l i) (w : Fin 3 → ℝ)
    (h : angularVelocity solve d dd (LMRange a b) = .ok w) (w' : Fin 3 → ℝ) :
    (solid (fun θ φ => (Complex.normSq (field s a b (modes a dd) θ φ + Complex.I * ∑ i, (w i : ℂ) * LOp i s (field s a b (modes a d)) θ φ) : ℝ))).re ≤
      (solid (fun θ φ => (Complex.normSq (field s a b (modes a dd) θ φ + Complex.I * ∑ i, (w' i : ℂ) * LOp i s (field s a b (modes a d)) θ φ) : ℝ))).re := by
  rw [← change_integral s a b hs, ← change_integral s a b hs, Complex.ofReal_re, Complex.ofReal_re]
  exact angular_velocity_minimises a b ((abs_nonneg s).trans hs) d dd solve hsolve w h w'

/-- C68: the angular momentum flux is `1/16π` times the imaginary part of the integral of `conj(∂h/∂t) L h`. -/
theorem angular_momentum_flux_integral (interp : WM ℝ Unit ℂ → List ℝ → WM ℝ Unit ℂ) (dot : WM ℝ Unit ℂ → WM ℝ Unit ℂ)
    (h : WM ℝ Unit ℂ) (hdot : Option (Int × Flux.Modes)) (d : Flux.Modes)
    (hd : (hdot = none ∧ d = ⟨-2, dot h⟩) ∨ hdot = some (Weights.hdot, d)) (hs : d.spin = -2)
    (hv : Valid h) (hn : 2 ≤ h.nCols) (dv : Valid d.w) (dn : 2 ≤ d.w.nCols) (ht : d.w.t = h.t)
    (hmin : d.w.ellMin = h.ellMin) (hmax : d.w.ellMax = h.ellMax) (h2 : 2 ≤ h.ellMin) :
    ∃ J, Flux.angularMomentumFlux interp Weights.h (-2) dot h hdot = .ok J ∧ J.length = h.t.length ∧ ∀ k < h.t.length, ∃ j, J[k]? = some j ∧ ∀ i : Fin 3,
      (![j.1, j.2.1, j.2.2] : Fin 3 → ℝ) i = 1 / (16 * Real.pi) * (solid (fun θ φ =>
        conj (field (-2) h.ellMin h.ellMax (Verif.Spec.Flux.modesOf d.w k) θ φ) * LOp i (-2) (field (-2) h.ellMin h.ellMax (Verif.Spec.Flux.modesOf h k)) θ φ)).im := by
  refine ⟨_, Flux.angular_momentum_flux interp (-2) dot h hdot d hd hs hv hn dv dn ht hmin hmax, by simp, ?_⟩
  intro k hk
  refine ⟨_, by rw [List.getElem?_map, List.getElem?_range hk]; rfl, ?_⟩
  intro i
  rw [← inner_L_integral i (-2) h.ellMin h.ellMax (by norm_num; exact h2), one_div, inv_mul_eq_div]
  fin_cases i <;> rfl

/-- The hypotheses are met by the sample waveform of C22, and the operator is not trivial. -/
example : (2 : Int) ≤ Flux.sample.ellMin ∧ Valid Flux.sample ∧ 2 ≤ Flux.sample.nCols := ⟨by decide, Flux.sample_valid, by decide⟩

example (θ φ : ℝ) (hθ : Real.sin θ ≠ 0) : LOp 2 (-2) (field (-2) 2 2 (fun _ m => if m = 1 then 1 else 0)) θ φ = field (-2) 2 2 (fun _ m => if m = 1 then 1 else 0) θ φ := by
  rw [← L_differential 2 (-2) 2 2 _ θ φ hθ]
  refine field_congr _ _ _ _ _ θ φ fun ell m _ _ _ _ => ?_
  have : L 2 (fun _ m => if m = 1 then (1 : ℂ) else 0) ell m = (m : ℂ) * (if m = 1 then 1 else 0) := rfl
  rw [this]
  by_cases hm : m = 1
  · subst hm; simp
  · simp [hm]

end Verif.Props.AngMomIntegral
