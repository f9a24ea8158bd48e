import Verif.Spec.SphereOps
import Verif.Spec.Boost
import Verif.Lemmas.SphereDeriv
import Verif.Props.Ladder
import Verif.Props.BoostFlux

/-!
# C67: `apply_eth` applies the differential operators
-/

namespace Verif.Props.SphereOps
open Verif.Modes Verif.Ladder Verif.SphereDeriv Verif.GridMultiply Verif.Spec.Sphere Verif.Spec.SphereOps Verif.Spec.Ladder Verif.Spec.Boost

/-- C67: a function given by its modes has derivatives with respect to both angles. -/
theorem field_derivatives (s a b : Int) (f : Int → Int → ℂ) (θ φ : ℝ) :
    HasDerivAt (fun x => field s a b f x φ) (-(1 / 2) * (field (s + 1) a b (eth s f) θ φ + field (s - 1) a b (ethbar s f) θ φ)) θ ∧
    HasDerivAt (fun x => field s a b f θ x) (field s a b (fun ell m => Complex.I * m * f ell m) θ φ) φ := by
  constructor
  · have h : HasDerivAt (fun x => field s a b f x φ) (∑ ell ∈ Finset.Icc a b, ∑ m ∈ Finset.Icc (-ell) ell, f ell m * (-(1 / 2) * (EY s ell m θ φ + BY s ell m θ φ))) θ := by
      refine HasDerivAt.fun_sum fun ell _ => HasDerivAt.fun_sum fun m hm => ?_
      rw [Finset.mem_Icc] at hm
      exact (Y_theta s ell m hm.1 hm.2 θ φ).const_mul (f ell m)
    refine Eq.subst (motive := fun d => HasDerivAt _ d θ) ?_ h
    unfold field eth ethbar EY BY
    rw [← Finset.sum_add_distrib, Finset.mul_sum]
    refine Finset.sum_congr rfl fun ell _ => ?_
    rw [← Finset.sum_add_distrib, Finset.mul_sum]
    refine Finset.sum_congr rfl fun m _ => ?_
    ring
  · have h : HasDerivAt (fun x => field s a b f θ x) (∑ ell ∈ Finset.Icc a b, ∑ m ∈ Finset.Icc (-ell) ell, f ell m * (Complex.I * m * Y s ell m (rotor θ φ))) φ := by
      refine HasDerivAt.fun_sum fun ell _ => HasDerivAt.fun_sum fun m hm => ?_
      rw [Finset.mem_Icc] at hm
      exact (Y_phi s ell m hm.1 hm.2 θ φ).const_mul (f ell m)
    refine Eq.subst (motive := fun d => HasDerivAt _ d φ) ?_ h
    unfold field
    refine Finset.sum_congr rfl fun ell _ => Finset.sum_congr rfl fun m _ => ?_
    ring

theorem field_spin (s a b : Int) (f : Int → Int → ℂ) (θ φ : ℝ) :
    field s a b (fun ell m => (m : ℂ) * f ell m) θ φ + s * (Real.cos θ : ℝ) * field s a b f θ φ = 1 / 2 * (Real.sin θ : ℝ) * (field (s + 1) a b (eth s f) θ φ - field (s - 1) a b (ethbar s f) θ φ) := by
  unfold field
  rw [Finset.mul_sum, ← Finset.sum_add_distrib, ← Finset.sum_sub_distrib, Finset.mul_sum]
  refine Finset.sum_congr rfl fun ell _ => ?_
  rw [Finset.mul_sum, ← Finset.sum_add_distrib, ← Finset.sum_sub_distrib, Finset.mul_sum]
  refine Finset.sum_congr rfl fun m hm => ?_
  rw [Finset.mem_Icc] at hm
  have h := Y_sum_spin s ell m hm.1 hm.2 θ φ
  unfold EY BY at h
  unfold eth ethbar
  linear_combination f ell m * h

theorem field_const (s a b : Int) (k : ℂ) (f : Int → Int → ℂ) (θ φ : ℝ) : field s a b (fun ell m => k * f ell m) θ φ = k * field s a b f θ φ := by
  unfold field
  simp only [Finset.mul_sum, mul_assoc]

/-- C67: multiplication of the modes by the factors of `eth` and `ethbar` is the differential operator, in any direction but the poles. -/
theorem eth_differential (s a b : Int) (f : Int → Int → ℂ) (θ φ : ℝ) (hθ : Real.sin θ ≠ 0) :
    field (s + 1) a b (eth s f) θ φ = ethOp s (field s a b f) θ φ ∧ field (s - 1) a b (ethbar s f) θ φ = ethbarOp s (field s a b f) θ φ := by
  obtain ⟨h1, h2⟩ := field_derivatives s a b f θ φ
  have h3 := field_spin s a b f θ φ
  have e2 : field s a b (fun ell m => Complex.I * m * f ell m) θ φ = Complex.I * field s a b (fun ell m => (m : ℂ) * f ell m) θ φ := by
    rw [← field_const]
    simp only [mul_assoc]
  have hs : ((Real.sin θ : ℝ) : ℂ) ≠ 0 := by exact_mod_cast hθ
  unfold ethOp ethbarOp
  rw [h1.deriv, h2.deriv, e2]
  have hI := Complex.I_mul_I
  constructor
  · field_simp
    linear_combination (field s a b (fun ell m => (m : ℂ) * f ell m) θ φ * 2) * hI - 2 * h3
  · field_simp
    linear_combination (-field s a b (fun ell m => (m : ℂ) * f ell m) θ φ * 2) * hI + 2 * h3

/-- The operators depend only on the values away from the poles. -/
theorem deriv_congr {F G : ℝ → ℝ → ℂ} (h : ∀ θ φ, Real.sin θ ≠ 0 → F θ φ = G θ φ) (θ φ : ℝ) (hθ : Real.sin θ ≠ 0) :
    deriv (fun x => F x φ) θ = deriv (fun x => G x φ) θ ∧ deriv (fun x => F θ x) φ = deriv (fun x => G θ x) φ := by
  constructor
  · apply Filter.EventuallyEq.deriv_eq
    have : ∀ᶠ x in nhds θ, Real.sin x ≠ 0 := Real.continuous_sin.continuousAt.eventually_ne hθ
    filter_upwards [this] with x hx
    exact h x φ hx
  · congr 1
    funext x
    exact h θ x hθ

theorem op_congr (s : Int) {F G : ℝ → ℝ → ℂ} (h : ∀ θ φ, Real.sin θ ≠ 0 → F θ φ = G θ φ) (θ φ : ℝ) (hθ : Real.sin θ ≠ 0) :
    ethOp s F θ φ = ethOp s G θ φ ∧ ethbarOp s F θ φ = ethbarOp s G θ φ := by
  obtain ⟨h1, h2⟩ := deriv_congr h θ φ hθ
  unfold ethOp ethbarOp
  rw [h1, h2, h θ φ hθ]
  exact ⟨rfl, rfl⟩

theorem field_congr (s a b : Int) (f g : Int → Int → ℂ) (θ φ : ℝ) (h : ∀ ell m, a ≤ ell → ell ≤ b → -ell ≤ m → m ≤ ell → f ell m * Y s ell m (rotor θ φ) = g ell m * Y s ell m (rotor θ φ)) :
    field s a b f θ φ = field s a b g θ φ := by
  unfold field
  refine Finset.sum_congr rfl fun ell he => Finset.sum_congr rfl fun m hm => ?_
  rw [Finset.mem_Icc] at he hm
  exact h ell m he.1 he.2 hm.1 hm.2

/-- The factors of a single operation, which are zero where there is no harmonic. -/
theorem single_field (s a b : Int) (f : Int → Int → ℂ) (θ φ : ℝ) :
    field (s + 1) a b (fun ell m => (single s ell .eth : ℂ) * f ell m) θ φ = field (s + 1) a b (eth s f) θ φ ∧
    field (s - 1) a b (fun ell m => (single s ell .ethbar : ℂ) * f ell m) θ φ = field (s - 1) a b (ethbar s f) θ φ := by
  constructor
  · refine field_congr _ _ _ _ _ θ φ fun ell m _ _ _ _ => ?_
    by_cases h : |s| ≤ ell
    · rw [Props.Ladder.single_eth s ell h]
      rfl
    · rw [Props.Ladder.single_zero s ell h]
      have := EY_zero (m := m) h θ φ
      unfold EY at this
      unfold eth
      push_cast
      linear_combination (-f ell m) * this
  · refine field_congr _ _ _ _ _ θ φ fun ell m _ _ _ _ => ?_
    by_cases h : |s| ≤ ell
    · rw [Props.Ladder.single_ethbar s ell h]
      unfold ethbar
      push_cast
      ring
    · rw [Props.Ladder.single_zero s ell h]
      have := BY_zero (m := m) h θ φ
      unfold BY at this
      unfold ethbar
      push_cast
      linear_combination (-f ell m) * this

/-- C67: the factors of a sequence of operations. -/
theorem sequence_differential (s a b : Int) (f : Int → Int → ℂ) (ops : List Op) : ∀ θ φ : ℝ, Real.sin θ ≠ 0 →
    field (spinAfter s ops) a b (fun ell m => (factor s ell ops : ℂ) * f ell m) θ φ = opsOp s (field s a b f) ops θ φ := by
  induction ops with
  | nil =>
    intro θ φ _
    simp only [factor, spinAfter, opsOp, Complex.ofReal_one, one_mul]
  | cons o ops ih =>
    intro θ φ hθ
    have c := op_congr (spinAfter s ops) (fun θ φ h => (ih θ φ h).symm) θ φ hθ
    have e := eth_differential (spinAfter s ops) a b (fun ell m => (factor s ell ops : ℂ) * f ell m) θ φ hθ
    have g := single_field (spinAfter s ops) a b (fun ell m => (factor s ell ops : ℂ) * f ell m) θ φ
    cases o with
    | eth =>
      show _ = ethOp (spinAfter s ops) (opsOp s (field s a b f) ops) θ φ
      rw [c.1, ← e.1, ← g.1]
      show field (spinAfter s ops + 1) a b _ θ φ = _
      refine field_congr _ _ _ _ _ θ φ fun ell m _ _ _ _ => ?_
      simp only [factor]
      push_cast
      ring
    | ethbar =>
      show _ = ethbarOp (spinAfter s ops) (opsOp s (field s a b f) ops) θ φ
      rw [c.2, ← e.2, ← g.2]
      show field (spinAfter s ops - 1) a b _ θ φ = _
      refine field_congr _ _ _ _ _ θ φ fun ell m _ _ _ _ => ?_
      simp only [factor]
      push_cast
      ring

/-- The modes in a row of data that begins with `ell = a`. -/
def modes (a : Int) (row : Row ℂ) : Int → Int → ℂ := fun ell m => row (lmIndex ell m a)

/-- C67: `apply_eth` with a string that spells the operations `ops` gives the modes of the function obtained with the differential
operators, divided by `√2` for each operation in the convention of Geroch, Held and Penrose. -/
theorem apply_eth_differential (str : List Char) (ops : List Op) (hstr : Spells str ops) (s ellMin ellMax : Int) (row : Row ℂ) :
    (∃ out, applyEth (.string str) s ellMin ellMax "NP" row = .ok out ∧ ∀ θ φ, Real.sin θ ≠ 0 →
      field (spinAfter s ops) ellMin ellMax (modes ellMin out) θ φ = opsOp s (field s ellMin ellMax (modes ellMin row)) ops θ φ) ∧
    ∃ out, applyEth (.string str) s ellMin ellMax "GHP" row = .ok out ∧ ∀ θ φ, Real.sin θ ≠ 0 →
      field (spinAfter s ops) ellMin ellMax (modes ellMin out) θ φ = ((1 / √2) ^ ops.length : ℝ) * opsOp s (field s ellMin ellMax (modes ellMin row)) ops θ φ := by
  constructor
  · obtain ⟨out, h1, h2⟩ := Props.Ladder.apply_eth_spec (.string str) s ellMin ellMax "NP" row (fun ell => factor s ell ops) fun ell => Props.Ladder.ladder_factor_string_NP str ops s ell hstr
    refine ⟨out, h1, fun θ φ hθ => ?_⟩
    rw [← sequence_differential s ellMin ellMax _ ops θ φ hθ]
    refine field_congr _ _ _ _ _ θ φ fun ell m a1 a2 a3 a4 => ?_
    unfold modes
    rw [h2 ell m a1 a2 (abs_le.2 ⟨a3, a4⟩), mul_comm (row _)]
  · obtain ⟨out, h1, h2⟩ := Props.Ladder.apply_eth_spec (.string str) s ellMin ellMax "GHP" row (fun ell => (1 / √2) ^ ops.length * factor s ell ops) fun ell => Props.Ladder.ladder_factor_GHP str ops s ell hstr
    refine ⟨out, h1, fun θ φ hθ => ?_⟩
    rw [← sequence_differential s ellMin ellMax _ ops θ φ hθ, ← field_const]
    refine field_congr _ _ _ _ _ θ φ fun ell m a1 a2 a3 a4 => ?_
    unfold modes
    rw [h2 ell m a1 a2 (abs_le.2 ⟨a3, a4⟩)]
    push_cast
    ring

/-! ## The boost flux -/

open Verif.Slicing Verif.Spec.Slicing Verif.Flux Verif.BoostFlux Verif.Spec.Flux Verif.Props.Flux Verif.Props.BoostFlux

/-- The integral over the sphere does not depend on the values at the poles. -/
theorem solid_congr {F G : ℝ → ℝ → ℂ} (h : ∀ θ φ, Real.sin θ ≠ 0 → F θ φ = G θ φ) : solid F = solid G := by
  unfold solid
  congr 1
  funext θ
  congr 1
  funext φ
  by_cases hs : Real.sin θ = 0
  · rw [hs]
    simp
  · rw [h θ φ hs]

theorem integrand_differential (a b : Int) (i : Fin 3) (u : ℝ) (h N : Int → Int → ℂ) (θ φ : ℝ) (hθ : Real.sin θ ≠ 0) :
    integrand a b (chi i) u h N θ φ = boostIntegrand i u (field (-2) a b h) (field (-2) a b N) θ φ := by
  have hh := eth_differential (-2) a b h θ φ hθ
  have hN := eth_differential (-2) a b N θ φ hθ
  have hc := eth_differential 0 1 1 (chi i) θ φ hθ
  have e : field 0 1 1 (chi i) = fun θ φ => ((nHat i θ φ : ℝ) : ℂ) := by
    funext θ φ
    exact chi_field i θ φ
  rw [e] at hc
  rw [show (-2 : Int) + 1 = -1 by norm_num, show (-2 : Int) - 1 = -3 by norm_num] at hh hN
  rw [show (0 : Int) + 1 = 1 by norm_num, show (0 : Int) - 1 = -1 by norm_num] at hc
  unfold integrand boostIntegrand
  simp only [hh.1, hh.2, hN.1, hN.2, hc.1, hc.2, e]

/-- C67: the boost flux (C66) with the differential operators. -/
theorem boost_flux_differential (interp : WM ℝ Unit ℂ → List ℝ → WM ℝ Unit ℂ) (dot : WM ℝ Unit ℂ → WM ℝ Unit ℂ)
    (h : WM ℝ Unit ℂ) (hdot : Option (Int × Flux.Modes)) (d : Flux.Modes)
    (hd : (hdot = none ∧ d = ⟨-2, dot h⟩) ∨ hdot = some (Weights.hdot, d)) (hs : d.spin = -2)
    (hv : Valid h) (hn : 2 ≤ h.nCols) (dv : Valid d.w) (dn : 2 ≤ d.w.nCols) (ht : d.w.t = h.t)
    (hmin : d.w.ellMin = h.ellMin) (hmax : d.w.ellMax = h.ellMax) :
    ∃ B, boostFlux interp Weights.h (-2) dot h hdot = .ok B ∧ B.length = h.t.length ∧ ∀ (k : Nat) (u : ℝ), h.t[k]? = some u → ∃ b, B[k]? = some b ∧ ∀ i : Fin 3,
      (((![b.1, b.2.1, b.2.2] : Fin 3 → ℝ) i : ℝ) : ℂ) = -1 / (32 * Real.pi) *
        solid (boostIntegrand i u (field (-2) h.ellMin h.ellMax (modesOf h k)) (field (-2) h.ellMin h.ellMax (modesOf d.w k))) := by
  obtain ⟨B, h1, h2, h3⟩ := boost_flux_integral interp dot h hdot d hd hs hv hn dv dn ht hmin hmax
  refine ⟨B, h1, h2, fun k u hu => ?_⟩
  obtain ⟨b, h4, h5⟩ := h3 k u hu
  refine ⟨b, h4, fun i => ?_⟩
  rw [h5 i, solid_congr fun θ φ hθ => integrand_differential _ _ i u _ _ θ φ hθ]

/-! ## Examples -/

/-- `ð̄ð` of the modes of the example waveform. -/
example : (∃ out, applyEth (.string ['-', '+']) (-2) 2 3 "NP" (fun i => (i : ℂ)) = .ok out ∧ ∀ θ φ, Real.sin θ ≠ 0 →
    field (-2) 2 3 (modes 2 out) θ φ = ethbarOp (-1) (ethOp (-2) (field (-2) 2 3 (modes 2 fun i => (i : ℂ)))) θ φ) ∧ Real.sin 1 ≠ 0 :=
  ⟨(apply_eth_differential ['-', '+'] [.ethbar, .eth] (Spells.cons ['-'] ['+'] _ _ (by decide) (Spells.cons ['+'] [] _ _ (by decide) Spells.nil)) (-2) 2 3 _).1,
    (Real.sin_pos_of_pos_of_lt_pi one_pos (by linarith [Real.two_le_pi])).ne'⟩

end Verif.Props.SphereOps
