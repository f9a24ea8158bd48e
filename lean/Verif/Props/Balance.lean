import Verif.Lemmas.BalanceIntegrals

/-!
# The balance of charges and fluxes
-/

namespace Verif.Props.Balance
open Verif.GridMultiply Verif.Spec.Sphere Verif.Spec.Boost Verif.Spec.Balance Verif.Balance Verif.Props.SphereOps Verif.Charges Verif.Spec.Charges ComplexConjugate
open Verif.Slicing (WM)
open Verif.Spec.Slicing (Valid)
open Verif.Spec.Flux (modesOf)

/-! ## Derivatives of charges -/

theorem conj_deriv {f : ℝ → ℂ} {f' : ℂ} {u : ℝ} (h : HasDerivAt f f' u) : HasDerivAt (fun u => conj (f u)) (conj f') u :=
  Complex.conjCLE.toContinuousLinearMap.hasFDerivAt.comp_hasDerivAt u h

theorem re_deriv {f : ℝ → ℂ} {f' : ℂ} {u : ℝ} (h : HasDerivAt f f' u) : HasDerivAt (fun u => (f u).re) f'.re u :=
  Complex.reCLM.hasFDerivAt.comp_hasDerivAt u h

theorem bar_deriv {f : ℝ → Modes} {f' : Modes} {u : ℝ} (h : ∀ ell m, HasDerivAt (fun u => f u ell m) (f' ell m) u) (s ell m : Int) :
    HasDerivAt (fun u => bar s (f u) ell m) (bar s f' ell m) u := (conj_deriv (h ell (-m))).const_mul _

theorem eth_deriv {f : ℝ → Modes} {f' : Modes} {u : ℝ} (h : ∀ ell m, HasDerivAt (fun u => f u ell m) (f' ell m) u) (s ell m : Int) :
    HasDerivAt (fun u => ethGHP s (f u) ell m) (ethGHP s f' ell m) u := (h ell m).const_mul _

theorem pair_deriv {f : ℝ → Modes} {f' : Modes} {u : ℝ} (h : ∀ m, |m| ≤ 1 → HasDerivAt (fun u => f u 1 m) (f' 1 m) u) (i : Fin 3) :
    HasDerivAt (fun u => pair i (f u)) (pair i f') u :=
  (((h (-1) (by simp)).const_mul _).add ((h 0 (by simp)).const_mul _)).add ((h 1 (by simp)).const_mul _)

theorem vector_deriv {f : ℝ → Modes} {f' : Modes} {u : ℝ} (h : ∀ m, |m| ≤ 1 → HasDerivAt (fun u => f u 1 m) (f' 1 m) u) (i : Fin 3) :
    HasDerivAt (fun u => vector (f u) i.succ) ((pair i f').re / (4 * Real.pi)) u := by
  simp only [vec_chi]
  exact (re_deriv (pair_deriv h i)).div_const _

theorem energy_deriv {f : ℝ → Modes} {f' : Modes} {u : ℝ} (h : HasDerivAt (fun u => f u 0 0) (f' 0 0) u) :
    HasDerivAt (fun u => vector (f u) 0) ((f' 0 0).re / √(4 * Real.pi)) u := by
  simp only [vec_zero]
  exact (re_deriv h).div_const _

/-! ## Products as integrals -/

section
variable {b : Int} {mul : Int → Int → Modes → Modes → Modes} (hmul : IsProduct b mul)
include hmul

theorem pair_A (i : Fin 3) (S S' : Modes) : pair i (mul 2 (-2) S (bar 2 S')) = intA i b S S' := by
  rw [proj0 ((C.field 2 2 b S).mul (C.field (-2) 2 b (bar 2 S')))]
  · unfold intA
    simp only [mul_assoc]
  · intro m hm
    rw [hmul 2 (-2) _ _ 1 m (by norm_num) hm, field_two 2 b (by norm_num), field_two (-2) b (by norm_num)]
    norm_num

theorem zero_A (S S' : Modes) : mul 2 (-2) S (bar 2 S') 0 0 = ((1 / √(4 * Real.pi) : ℝ) : ℂ) * solid fun θ φ => field 2 2 b S θ φ * field (-2) 2 b (bar 2 S') θ φ := by
  rw [hmul 2 (-2) _ _ 0 0 (by norm_num) (by norm_num), field_two 2 b (by norm_num), field_two (-2) b (by norm_num), ← solid_const]
  congr 1
  funext θ φ
  rw [show ((2 : Int) + -2) = 0 by norm_num, Verif.Sphere.Y000, Complex.conj_ofReal]

theorem pair_B (i : Fin 3) (S S' : Modes) : pair i (mul 2 (-1) S' (ethGHP (-2) (bar 2 S))) = 1 / 2 * intB i b S S' := by
  rw [proj1 (((C.field 2 2 b S').mul (C.field (-1) 2 b (eth (-2) (bar 2 S)))).const ((1 / √2 : ℝ) : ℂ))]
  · have e : (fun θ φ => field (-1) 1 1 (ethbar 0 (chi i)) θ φ * (((1 / √2 : ℝ) : ℂ) * (field 2 2 b S' θ φ * field (-1) 2 b (eth (-2) (bar 2 S)) θ φ))) = fun θ φ =>
        ((1 / √2 : ℝ) : ℂ) * (field (-1) 1 1 (ethbar 0 (chi i)) θ φ * field 2 2 b S' θ φ * field (-1) 2 b (eth (-2) (bar 2 S)) θ φ) := by
      funext θ φ
      ring
    rw [e, solid_const, ← mul_assoc]
    congr 1
    rw [← Complex.ofReal_mul, div_mul_div_comm, Real.mul_self_sqrt (by norm_num)]
    norm_num
  · intro m hm
    rw [hmul 2 (-1) _ _ 1 m (by norm_num) hm, field_two 2 b (by norm_num), ghp]
    congr 1
    funext θ φ
    rw [field_const, field_eth_two, show ((2 : Int) + -1) = 1 by norm_num]
    ring

/-! ## The rates of change -/

variable {d : History} (hd : Bondi mul d)
include hd

theorem mass_rate (u : ℝ) (ell m : Int) (h0 : 0 ≤ ell) (h1 : ell ≤ 1) (hm : |m| ≤ ell) :
    HasDerivAt (fun u => d.psi2 u ell m + mul 2 (-2) (d.sigma u) (bar 2 (d.sigmaDot u)) ell m) (mul 2 (-2) (d.sigmaDot u) (bar 2 (d.sigmaDot u)) ell m) u := by
  have p := product_deriv hmul 2 (-2) d.sigma (fun u => bar 2 (d.sigmaDot u)) d.sigmaDot (fun u => bar 2 (d.sigmaDdot u)) u (hd.news u) (bar_deriv (hd.news' u) 2) ell m (by norm_num; exact h0) hm
  have q := (hd.dpsi2 u ell m h1 hm).add p
  refine Eq.subst (motive := fun x => HasDerivAt _ x u) ?_ q
  have e3 : ethGHP (-1) (d.psi3 u) ell m = 0 := by
    have := Verif.Props.Charges.eth_eth_low (bar 2 (d.sigmaDot u)) ell m h0 h1
    unfold History.psi3
    unfold ethGHP at this ⊢
    linear_combination -this
  have e4 : mul 2 (-2) (d.sigma u) (d.psi4 u) ell m = -mul 2 (-2) (d.sigma u) (bar 2 (d.sigmaDdot u)) ell m := by
    have : d.psi4 u = fun ell m => (-1 : ℂ) * bar 2 (d.sigmaDdot u) ell m := by
      funext ell m
      unfold History.psi4
      ring
    rw [this, product_const hmul _ _ _ _ _ _ _ (by norm_num; exact h0) hm]
    ring
  rw [e3, e4]
  ring

theorem spin_rate (u : ℝ) (m : Int) (hm : |m| ≤ 1) :
    HasDerivAt (fun u => d.psi1 u 1 m + mul 2 (-1) (d.sigma u) (ethGHP (-2) (bar 2 (d.sigma u))) 1 m)
      (d.psi2 u 1 m + mul 2 (-1) (d.sigmaDot u) (ethGHP (-2) (bar 2 (d.sigma u))) 1 m - mul 2 (-1) (d.sigma u) (ethGHP (-2) (bar 2 (d.sigmaDot u))) 1 m) u := by
  have p := product_deriv hmul 2 (-1) d.sigma (fun u => ethGHP (-2) (bar 2 (d.sigma u))) d.sigmaDot (fun u => ethGHP (-2) (bar 2 (d.sigmaDot u))) u (hd.news u)
    (eth_deriv (bar_deriv (hd.news u) 2) (-2)) 1 m (by norm_num) hm
  have q := (hd.dpsi1 u 1 m rfl hm).add p
  refine Eq.subst (motive := fun x => HasDerivAt _ x u) ?_ q
  have e3 : mul 2 (-1) (d.sigma u) (d.psi3 u) 1 m = -mul 2 (-1) (d.sigma u) (ethGHP (-2) (bar 2 (d.sigmaDot u))) 1 m := by
    have : d.psi3 u = fun ell m => (-1 : ℂ) * ethGHP (-2) (bar 2 (d.sigmaDot u)) ell m := by
      funext ell m
      unfold History.psi3
      ring
    rw [this, product_const hmul _ _ _ _ _ _ _ (by norm_num) hm]
    ring
  rw [e3, Verif.Props.Charges.ethGHP_one]
  ring

omit hmul in
theorem mass_real (u : ℝ) (i : Fin 3) : (pair i fun ell m => d.psi2 u ell m + mul 2 (-2) (d.sigma u) (bar 2 (d.sigmaDot u)) ell m).im = 0 := by
  have e := fun m => Verif.Props.Charges.eth_eth_low (bar 2 (d.sigma u)) 1 m (by norm_num) (by norm_num)
  have key : ∀ m : Int, |m| ≤ 1 → (-1) ^ (0 + m).natAbs * conj (d.psi2 u 1 (-m) + mul 2 (-2) (d.sigma u) (bar 2 (d.sigmaDot u)) 1 (-m)) = d.psi2 u 1 m + mul 2 (-2) (d.sigma u) (bar 2 (d.sigmaDot u)) 1 m := by
    intro m hm
    have h : (-1) ^ (0 + m).natAbs * conj (d.psi2 u 1 (-m) + ethGHP (-1) (ethGHP (-2) (bar 2 (d.sigma u))) 1 (-m) + mul 2 (-2) (d.sigma u) (bar 2 (d.sigmaDot u)) 1 (-m)) =
      d.psi2 u 1 m + ethGHP (-1) (ethGHP (-2) (bar 2 (d.sigma u))) 1 m + mul 2 (-2) (d.sigma u) (bar 2 (d.sigmaDot u)) 1 m := hd.real u 1 m rfl hm
    rwa [e, e, add_zero, add_zero] at h
  have h0' : conj (d.psi2 u 1 0 + mul 2 (-2) (d.sigma u) (bar 2 (d.sigmaDot u)) 1 0) = d.psi2 u 1 0 + mul 2 (-2) (d.sigma u) (bar 2 (d.sigmaDot u)) 1 0 := by
    have := key 0 (by norm_num)
    rwa [add_zero, Int.natAbs_zero, pow_zero, one_mul, neg_zero] at this
  have h1' : conj (d.psi2 u 1 (-1) + mul 2 (-2) (d.sigma u) (bar 2 (d.sigmaDot u)) 1 (-1)) = -(d.psi2 u 1 1 + mul 2 (-2) (d.sigma u) (bar 2 (d.sigmaDot u)) 1 1) := by
    have := key 1 (by norm_num)
    rw [zero_add, Int.natAbs_one, pow_one, neg_one_mul] at this
    rw [← this, neg_neg]
  obtain ⟨a1, a2, a3, a4, a5, a6, a7, a8, a9⟩ := Verif.Props.BoostFlux.chi_values
  unfold pair
  beta_reduce
  generalize d.psi2 u 1 (-1) + mul 2 (-2) (d.sigma u) (bar 2 (d.sigmaDot u)) 1 (-1) = x at *
  generalize d.psi2 u 1 0 + mul 2 (-2) (d.sigma u) (bar 2 (d.sigmaDot u)) 1 0 = y at *
  generalize d.psi2 u 1 1 + mul 2 (-2) (d.sigma u) (bar 2 (d.sigmaDot u)) 1 1 = z at *
  have z' : z = -conj x := by rw [h1']; ring
  have y' := Complex.conj_eq_iff_im.1 h0'
  fin_cases i
  · show (conj (chi 0 1 (-1)) * x + conj (chi 0 1 0) * y + conj (chi 0 1 1) * z).im = 0
    rw [a1, a2, a3, z']
    simp
  · show (conj (chi 1 1 (-1)) * x + conj (chi 1 1 0) * y + conj (chi 1 1 1) * z).im = 0
    rw [a4, a5, a6, z']
    simp
  · show (conj (chi 2 1 (-1)) * x + conj (chi 2 1 0) * y + conj (chi 2 1 1) * z).im = 0
    rw [a7, a8, a9]
    simp [y']

end

/-! ## The fluxes of the strain -/

theorem scaled (s b : Int) {f g : Modes} (h : ∀ ell m, 2 ≤ ell → ell ≤ b → |m| ≤ ell → f ell m = 2 * g ell m) (θ φ : ℝ) : field s 2 b f θ φ = 2 * field s 2 b g θ φ := by
  rw [← field_const]
  exact field_congr _ _ _ _ _ θ φ fun ell m h1 h2 h3 h4 => by rw [h ell m h1 h2 (abs_le.2 ⟨h3, h4⟩)]

theorem scaled_eth (s t b : Int) {f g : Modes} (h : ∀ ell m, 2 ≤ ell → ell ≤ b → |m| ≤ ell → f ell m = 2 * g ell m) (θ φ : ℝ) : field s 2 b (eth t f) θ φ = 2 * field s 2 b (eth t g) θ φ :=
  scaled s b (fun ell m h1 h2 h3 => by unfold eth; rw [h ell m h1 h2 h3]; ring) θ φ

theorem scaled_ethbar (s t b : Int) {f g : Modes} (h : ∀ ell m, 2 ≤ ell → ell ≤ b → |m| ≤ ell → f ell m = 2 * g ell m) (θ φ : ℝ) : field s 2 b (ethbar t f) θ φ = 2 * field s 2 b (ethbar t g) θ φ :=
  scaled s b (fun ell m h1 h2 h3 => by unfold ethbar; rw [h ell m h1 h2 h3]; ring) θ φ

theorem conj_strain (b : Int) (S : Modes) (θ φ : ℝ) : conj (field (-2) 2 b (bar 2 S) θ φ) = field 2 2 b S θ φ := conj_bar 2 2 b S θ φ

theorem conj_two (z : ℂ) : conj (2 * z) = 2 * conj z := by rw [map_mul, Complex.conj_ofNat]

section
variable {b : Int} {f g S S' : Modes} (hf : ∀ ell m, 2 ≤ ell → ell ≤ b → |m| ≤ ell → f ell m = 2 * bar 2 S ell m) (hg : ∀ ell m, 2 ≤ ell → ell ≤ b → |m| ≤ ell → g ell m = 2 * bar 2 S' ell m)
include hg

theorem energy_solid : solid (fun θ φ => conj (field (-2) 2 b g θ φ) * field (-2) 2 b g θ φ) = 4 * solid fun θ φ => field 2 2 b S' θ φ * field (-2) 2 b (bar 2 S') θ φ := by
  rw [← solid_const]
  congr 1
  funext θ φ
  rw [scaled _ _ hg, conj_two, conj_strain]
  ring

theorem momentum_solid (i : Fin 3) : solid (fun θ φ => conj (field (-2) 2 b g θ φ) * field (-2) 2 b g θ φ * nHat i θ φ) = 4 * intA i b S' S' := by
  unfold intA
  rw [← solid_const]
  congr 1
  funext θ φ
  rw [scaled _ _ hg, conj_two, conj_strain, Verif.Props.BoostFlux.chi_field]
  ring

include hf

theorem spin_solid (i : Fin 3) : Verif.Spec.AngMom.inner 2 b g (Verif.Spec.AngMom.L i f) = 2 * intB i b S S' - 2 * intE i b S S' + 8 * intA i b S' S := by
  rw [← Verif.Props.FluxIntegral.parseval (-2) 2 b (by norm_num)]
  unfold intA intB intE
  have e : solid (fun θ φ => conj (field (-2) 2 b g θ φ) * field (-2) 2 b (Verif.Spec.AngMom.L i f) θ φ) = solid fun θ φ =>
      2 * (field (-1) 1 1 (ethbar 0 (chi i)) θ φ * field 2 2 b S' θ φ * field (-1) 2 b (eth (-2) (bar 2 S)) θ φ)
      + -2 * (field 1 1 1 (eth 0 (chi i)) θ φ * field 2 2 b S' θ φ * field (-3) 2 b (ethbar (-2) (bar 2 S)) θ φ)
      + 8 * (field 0 1 1 (chi i) θ φ * field 2 2 b S' θ φ * field (-2) 2 b (bar 2 S) θ φ) := by
    refine solid_congr fun θ φ hθ => ?_
    rw [L_eth i (-2) 2 b f θ φ hθ, scaled _ _ hg, conj_two, conj_strain, scaled _ _ hf, scaled_eth _ _ _ hf, scaled_ethbar _ _ _ hf, show ((-2 : Int) + 1) = -1 by norm_num, show ((-2 : Int) - 1) = -3 by norm_num]
    push_cast
    ring
  rw [e, solid_add ((C3.const _).add (C3.const _)) (C3.const _), solid_add (C3.const _) (C3.const _), solid_const, solid_const, solid_const]
  ring

theorem boost_solid (i : Fin 3) (u : ℝ) : solid (integrand 2 b (chi i) u f g) = ((intB i b S S' - intB i b S' S).re : ℝ) - 2 * u * intA i b S' S' := by
  have e : integrand 2 b (chi i) u f g = fun θ φ =>
      1 / 2 * (field 0 1 1 (chi i) θ φ * field 3 2 b (eth 2 S') θ φ * field (-3) 2 b (ethbar (-2) (bar 2 S)) θ φ)
      + -(1 / 2) * (field 0 1 1 (chi i) θ φ * field 1 2 b (ethbar 2 S') θ φ * field (-1) 2 b (eth (-2) (bar 2 S)) θ φ)
      + 1 / 2 * (field 0 1 1 (chi i) θ φ * field 3 2 b (eth 2 S) θ φ * field (-3) 2 b (ethbar (-2) (bar 2 S')) θ φ)
      + -(1 / 2) * (field 0 1 1 (chi i) θ φ * field 1 2 b (ethbar 2 S) θ φ * field (-1) 2 b (eth (-2) (bar 2 S')) θ φ)
      + 3 * (field 0 1 1 (chi i) θ φ * field 2 2 b S' θ φ * field (-2) 2 b (bar 2 S) θ φ)
      + 3 * (field 0 1 1 (chi i) θ φ * field 2 2 b S θ φ * field (-2) 2 b (bar 2 S') θ φ)
      + -1 * (field 1 1 1 (eth 0 (chi i)) θ φ * field 1 2 b (ethbar 2 S') θ φ * field (-2) 2 b (bar 2 S) θ φ)
      + -1 * (field (-1) 1 1 (ethbar 0 (chi i)) θ φ * field 2 2 b S θ φ * field (-1) 2 b (eth (-2) (bar 2 S')) θ φ)
      + -(2 * u) * (field 0 1 1 (chi i) θ φ * field 2 2 b S' θ φ * field (-2) 2 b (bar 2 S') θ φ) := by
    funext θ φ
    unfold integrand
    simp only [scaled _ _ hf, scaled _ _ hg, scaled_eth _ _ _ hf, scaled_eth _ _ _ hg, scaled_ethbar _ _ _ hf, scaled_ethbar _ _ _ hg, conj_two, conj_strain, conj_eth_bar, conj_ethbar_bar]
    ring
  have c := fun (k : ℂ) (s1 s2 s3 a1 b1 a2 b2 a3 b3 : Int) (f1 f2 f3 : Modes) => (C3 (s1 := s1) (s2 := s2) (s3 := s3) (a1 := a1) (b1 := b1) (a2 := a2) (b2 := b2) (a3 := a3) (b3 := b3) (f1 := f1) (f2 := f2) (f3 := f3)).const k
  rw [e]
  iterate 8 rw [solid_add (by repeat' first | exact c _ _ _ _ _ _ _ _ _ _ _ _ _ | apply C.add) (c _ _ _ _ _ _ _ _ _ _ _ _ _)]
  simp only [solid_const]
  have x1 := relX i b S S'
  have x2 := relX i b S' S
  have e1 := relE i b S S'
  have e2 := relE i b S' S
  have g1 := conj_B i b S S'
  have g2 := conj_B i b S' S
  have r : (((intB i b S S' - intB i b S' S).re : ℝ) : ℂ) = (intB i b S S' + conj (intB i b S S')) / 2 - (intB i b S' S + conj (intB i b S' S)) / 2 := by
    rw [Complex.sub_re, Complex.ofReal_sub, Complex.re_eq_add_conj, Complex.re_eq_add_conj]
  rw [r, g1, g2]
  unfold intA intB intE intG intX1 intX2 at *
  linear_combination 1 / 2 * x1 + 1 / 2 * x2 - 1 / 2 * e1 - 1 / 2 * e2

end

/-! ## Balance -/

section
variable {b : Int} {mul : Int → Int → Modes → Modes → Modes} (hmul : IsProduct b mul) {d : History} (hd : Bondi mul d) {h hdot : WM ℝ Unit ℂ} (hs : Strain b d h hdot)
include hmul hd hs

/-- C69: the energy and momentum of Bondi data decrease at the rate of the energy and momentum fluxes of its strain. -/
theorem four_momentum_balance (dflt dt spin : Int) (interp : WM ℝ Unit ℂ → List ℝ → WM ℝ Unit ℂ) (dot : WM ℝ Unit ℂ → WM ℝ Unit ℂ) (w : WM ℝ Unit ℂ) (hc : Flux.chooseHdot dt dot w = .ok hdot) :
    ∃ (P : ℝ → Fin 4 → ℝ) (E : List ℝ) (p : List (ℝ × ℝ × ℝ)), (∀ u, bondiFourMomentum mul dflt (d.at u) = .ok (List.ofFn (P u))) ∧
      Flux.energyFlux dt dot w = .ok E ∧ Flux.momentumFlux interp dt spin dot w = .ok p ∧
      ∀ (k : Nat) (u : ℝ), h.t[k]? = some u → ∃ e q, E[k]? = some e ∧ p[k]? = some q ∧ HasDerivAt (fun u => P u 0) (-e) u ∧
        ∀ i : Fin 3, HasDerivAt (fun u => P u i.succ) (-(![q.1, q.2.1, q.2.2] : Fin 3 → ℝ) i) u := by
  obtain ⟨E, hE, lE, vE⟩ := Verif.Props.FluxIntegral.energy_flux_integral dt (-2) dot w hdot hc hs.valid' (by rw [hs.lo']; norm_num)
  obtain ⟨p, hp, lp, vp⟩ := Verif.Props.FluxIntegral.momentum_flux_integral interp dt spin dot w hdot hc hs.valid' hs.cols'
  refine ⟨_, E, p, fun u => Verif.Props.Charges.four_momentum_spec mul dflt (d.at u), hE, hp, fun k u hu => ?_⟩
  have hk : k < h.t.length := (List.getElem?_eq_some_iff.1 hu).1
  have hkE : k < E.length := by rw [lE, hs.times]; exact hk
  have hkp : k < p.length := by rw [lp, hs.times]; exact hk
  refine ⟨E[k], p[k], List.getElem?_eq_getElem hkE, List.getElem?_eq_getElem hkp, ?_, fun i => ?_⟩
  · have v := vE k hkE
    rw [hs.lo', hs.hi', energy_solid (hs.rate k u hu)] at v
    have r := (energy_deriv (f := fun u ell m => d.psi2 u ell m + mul 2 (-2) (d.sigma u) (bar 2 (d.sigmaDot u)) ell m) (mass_rate hmul hd u 0 0 (by norm_num) (by norm_num) (by norm_num))).neg
    refine Eq.subst (motive := fun x => HasDerivAt _ x u) ?_ r
    rw [zero_A hmul, Complex.re_ofReal_mul]
    have v' := congrArg Complex.re v
    rw [Complex.ofReal_re, ← mul_assoc, show (1 / (16 * (Real.pi : ℂ)) * 4) = ((1 / (4 * Real.pi) : ℝ) : ℂ) by push_cast; ring, Complex.re_ofReal_mul] at v'
    rw [v', one_div_mul_eq_div, div_div, Real.mul_self_sqrt (by positivity), one_div_mul_eq_div]
  · have v := vp k hkp i
    rw [hs.lo', hs.hi', momentum_solid (hs.rate k u hu)] at v
    have r := (vector_deriv (f := fun u ell m => d.psi2 u ell m + mul 2 (-2) (d.sigma u) (bar 2 (d.sigmaDot u)) ell m) (fun m hm => mass_rate hmul hd u 1 m (by norm_num) (by norm_num) hm) i).neg
    refine Eq.subst (motive := fun x => HasDerivAt _ x u) ?_ r
    rw [pair_A hmul]
    have v' := congrArg Complex.re v
    rw [Complex.ofReal_re, ← mul_assoc, show (1 / (16 * (Real.pi : ℂ)) * 4) = ((1 / (4 * Real.pi) : ℝ) : ℂ) by push_cast; ring, Complex.re_ofReal_mul] at v'
    rw [v', one_div_mul_eq_div]

theorem spin_pair (u : ℝ) (i : Fin 3) : (pair i fun ell m => d.psi2 u ell m + mul 2 (-1) (d.sigmaDot u) (ethGHP (-2) (bar 2 (d.sigma u))) ell m - mul 2 (-1) (d.sigma u) (ethGHP (-2) (bar 2 (d.sigmaDot u))) ell m) =
    ((pair i fun ell m => d.psi2 u ell m + mul 2 (-2) (d.sigma u) (bar 2 (d.sigmaDot u)) ell m).re : ℝ) - intA i b (d.sigma u) (d.sigmaDot u)
      + 1 / 2 * intB i b (d.sigma u) (d.sigmaDot u) - 1 / 2 * intB i b (d.sigmaDot u) (d.sigma u) := by
  have r : (((pair i fun ell m => d.psi2 u ell m + mul 2 (-2) (d.sigma u) (bar 2 (d.sigmaDot u)) ell m).re : ℝ) : ℂ) = pair i fun ell m => d.psi2 u ell m + mul 2 (-2) (d.sigma u) (bar 2 (d.sigmaDot u)) ell m :=
    Complex.ext (Complex.ofReal_re _) (by rw [Complex.ofReal_im, mass_real hd u i])
  rw [r, ← pair_A hmul, ← pair_B hmul, ← pair_B hmul]
  unfold pair
  ring

/-- C69: the angular momentum of Bondi data decreases at the rate of the angular momentum flux of its strain. -/
theorem angular_momentum_balance (interp : WM ℝ Unit ℂ → List ℝ → WM ℝ Unit ℂ) (dot : WM ℝ Unit ℂ → WM ℝ Unit ℂ) (hd' : Option (Int × Flux.Modes))
    (hc : (hd' = none ∧ hdot = dot h) ∨ hd' = some (Weights.hdot, ⟨-2, hdot⟩)) :
    ∃ (J : ℝ → Fin 3 → ℝ) (F : List (ℝ × ℝ × ℝ)), (∀ u, bondiAngularMomentum mul (d.at u) = .ok (List.ofFn (J u))) ∧
      Flux.angularMomentumFlux interp Weights.h (-2) dot h hd' = .ok F ∧
      ∀ (k : Nat) (u : ℝ), h.t[k]? = some u → ∃ q, F[k]? = some q ∧ ∀ i : Fin 3, HasDerivAt (fun u => J u i) (-(![q.1, q.2.1, q.2.2] : Fin 3 → ℝ) i) u := by
  have hc' : (hd' = none ∧ (⟨-2, hdot⟩ : Flux.Modes) = ⟨-2, dot h⟩) ∨ hd' = some (Weights.hdot, ⟨-2, hdot⟩) := by
    rcases hc with ⟨h1, h2⟩ | h1
    · exact Or.inl ⟨h1, by rw [h2]⟩
    · exact Or.inr h1
  refine ⟨_, _, fun u => (Verif.Props.Charges.angular_momentum_spec mul (d.at u)).1,
    Verif.Props.Flux.angular_momentum_flux interp (-2) dot h hd' ⟨-2, hdot⟩ hc' rfl hs.valid hs.cols hs.valid' hs.cols' hs.times (hs.lo'.trans hs.lo.symm) (hs.hi'.trans hs.hi.symm), fun k u hu => ?_⟩
  have hk : k < h.t.length := (List.getElem?_eq_some_iff.1 hu).1
  refine ⟨_, by rw [List.getElem?_map, List.getElem?_range hk]; rfl, fun i => ?_⟩
  have fl : (![(Verif.Spec.AngMom.inner h.ellMin h.ellMax (modesOf hdot k) (Verif.Spec.AngMom.L 0 (modesOf h k))).im / (16 * Real.pi),
      (Verif.Spec.AngMom.inner h.ellMin h.ellMax (modesOf hdot k) (Verif.Spec.AngMom.L 1 (modesOf h k))).im / (16 * Real.pi),
      (Verif.Spec.AngMom.inner h.ellMin h.ellMax (modesOf hdot k) (Verif.Spec.AngMom.L 2 (modesOf h k))).im / (16 * Real.pi)] : Fin 3 → ℝ) i =
      (Verif.Spec.AngMom.inner h.ellMin h.ellMax (modesOf hdot k) (Verif.Spec.AngMom.L i (modesOf h k))).im / (16 * Real.pi) := by
    fin_cases i <;> rfl
  refine Eq.subst (motive := fun x => HasDerivAt _ (-x) u) fl.symm ?_
  rw [hs.lo, hs.hi, spin_solid (hs.strain k u hu) (hs.rate k u hu)]
  have r := vector_deriv (f := fun u ell m => Complex.I * (d.psi1 u ell m + mul 2 (-1) (d.sigma u) (ethGHP (-2) (bar 2 (d.sigma u))) ell m))
    (f' := fun ell m => Complex.I * (d.psi2 u ell m + mul 2 (-1) (d.sigmaDot u) (ethGHP (-2) (bar 2 (d.sigma u))) ell m - mul 2 (-1) (d.sigma u) (ethGHP (-2) (bar 2 (d.sigmaDot u))) ell m))
    (fun m hm => (spin_rate hmul hd u m hm).const_mul Complex.I) i
  refine Eq.subst (motive := fun x => HasDerivAt _ x u) ?_ r
  have p := spin_pair hmul hd hs u i
  have p' : (pair i fun ell m => Complex.I * (d.psi2 u ell m + mul 2 (-1) (d.sigmaDot u) (ethGHP (-2) (bar 2 (d.sigma u))) ell m - mul 2 (-1) (d.sigma u) (ethGHP (-2) (bar 2 (d.sigmaDot u))) ell m)) =
      Complex.I * pair i fun ell m => d.psi2 u ell m + mul 2 (-1) (d.sigmaDot u) (ethGHP (-2) (bar 2 (d.sigma u))) ell m - mul 2 (-1) (d.sigma u) (ethGHP (-2) (bar 2 (d.sigmaDot u))) ell m := by
    unfold pair
    ring
  rw [p', p]
  have e1 := congrArg Complex.im (relE i b (d.sigma u) (d.sigmaDot u))
  have g1 := congrArg Complex.im (conj_B i b (d.sigma u) (d.sigmaDot u))
  have a1 := congrArg Complex.im (conj_A i b (d.sigma u) (d.sigmaDot u))
  generalize intA i b (d.sigma u) (d.sigmaDot u) = A at *
  generalize intA i b (d.sigmaDot u) (d.sigma u) = A' at *
  generalize intB i b (d.sigma u) (d.sigmaDot u) = B at *
  generalize intB i b (d.sigmaDot u) (d.sigma u) = B' at *
  generalize intE i b (d.sigma u) (d.sigmaDot u) = X at *
  generalize intG i b (d.sigma u) (d.sigmaDot u) = G at *
  simp at e1 g1 a1
  have hpi := Real.pi_pos
  simp
  field_simp
  linarith

/-- C69, part: the boost charge of Bondi data changes at the rate of four times the boost flux of its strain.  (If the sign and the normalization were those of the other fluxes, it would
decrease at the rate of the flux.) -/
theorem boost_balance_partial (interp : WM ℝ Unit ℂ → List ℝ → WM ℝ Unit ℂ) (dot : WM ℝ Unit ℂ → WM ℝ Unit ℂ) (hd' : Option (Int × Flux.Modes))
    (hc : (hd' = none ∧ hdot = dot h) ∨ hd' = some (Weights.hdot, ⟨-2, hdot⟩)) :
    ∃ (N : ℝ → Fin 3 → ℝ) (F : List (ℝ × ℝ × ℝ)), (∀ u, bondiBoostCharge mul (d.at u) = .ok (List.ofFn (N u))) ∧
      BoostFlux.boostFlux interp Weights.h (-2) dot h hd' = .ok F ∧
      ∀ (k : Nat) (u : ℝ), h.t[k]? = some u → ∃ q, F[k]? = some q ∧ ∀ i : Fin 3, HasDerivAt (fun u => N u i) (4 * (![q.1, q.2.1, q.2.2] : Fin 3 → ℝ) i) u := by
  have hc' : (hd' = none ∧ (⟨-2, hdot⟩ : Flux.Modes) = ⟨-2, dot h⟩) ∨ hd' = some (Weights.hdot, ⟨-2, hdot⟩) := by
    rcases hc with ⟨h1, h2⟩ | h1
    · exact Or.inl ⟨h1, by rw [h2]⟩
    · exact Or.inr h1
  obtain ⟨F, hF, lF, vF⟩ := Verif.Props.BoostFlux.boost_flux_integral interp dot h hd' ⟨-2, hdot⟩ hc' rfl hs.valid hs.cols hs.valid' hs.cols' hs.times (hs.lo'.trans hs.lo.symm) (hs.hi'.trans hs.hi.symm)
  have hN : ∀ u, bondiBoostCharge mul (d.at u) = .ok (List.ofFn fun i : Fin 3 =>
      -(vector (fun ell m => d.psi1 u ell m + mul 2 (-1) (d.sigma u) (ethGHP (-2) (bar 2 (d.sigma u))) ell m) i.succ + vector (mul 2 (-2) (d.sigma u) (bar 2 (d.sigma u))) i.succ / 2)
        + u * vector (fun ell m => d.psi2 u ell m + mul 2 (-2) (d.sigma u) (bar 2 (d.sigmaDot u)) ell m) i.succ) := by
    intro u
    obtain ⟨G, N, P, h1, h2, h3, h4⟩ := Verif.Props.Charges.CoM_spec mul 0 (d.at u)
    have g := (Verif.Props.Charges.angular_momentum_spec mul (d.at u)).2
    rw [h1] at g
    have g := List.ofFn_injective (Except.ok.inj g)
    have p := Verif.Props.Charges.four_momentum_spec mul 0 (d.at u)
    rw [h3] at p
    have p := List.ofFn_injective (Except.ok.inj p)
    rw [h2]
    congr 2
    funext i
    have q := h4 i
    rw [g, p] at q
    have q : -(vector (fun ell m => d.psi1 u ell m + mul 2 (-1) (d.sigma u) (ethGHP (-2) (bar 2 (d.sigma u))) ell m) i.succ + vector (mul 2 (-2) (d.sigma u) (bar 2 (d.sigma u))) i.succ / 2) =
      N i + u * -vector (fun ell m => d.psi2 u ell m + mul 2 (-2) (d.sigma u) (bar 2 (d.sigmaDot u)) ell m) i.succ := q
    linarith
  refine ⟨_, F, hN, hF, fun k u hu => ?_⟩
  obtain ⟨q, hq, vq⟩ := vF k u hu
  refine ⟨q, hq, fun i => ?_⟩
  have v := vq i
  rw [hs.lo, hs.hi, boost_solid (hs.strain k u hu) (hs.rate k u hu)] at v
  have r1 := vector_deriv (f := fun u ell m => d.psi1 u ell m + mul 2 (-1) (d.sigma u) (ethGHP (-2) (bar 2 (d.sigma u))) ell m)
    (f' := fun ell m => d.psi2 u ell m + mul 2 (-1) (d.sigmaDot u) (ethGHP (-2) (bar 2 (d.sigma u))) ell m - mul 2 (-1) (d.sigma u) (ethGHP (-2) (bar 2 (d.sigmaDot u))) ell m)
    (fun m hm => spin_rate hmul hd u m hm) i
  have r2 := vector_deriv (f := fun u => mul 2 (-2) (d.sigma u) (bar 2 (d.sigma u)))
    (f' := fun ell m => mul 2 (-2) (d.sigmaDot u) (bar 2 (d.sigma u)) ell m + mul 2 (-2) (d.sigma u) (bar 2 (d.sigmaDot u)) ell m)
    (fun m hm => product_deriv hmul 2 (-2) d.sigma (fun u => bar 2 (d.sigma u)) d.sigmaDot (fun u => bar 2 (d.sigmaDot u)) u (hd.news u) (bar_deriv (hd.news u) 2) 1 m (by norm_num) hm) i
  have r3 := vector_deriv (f := fun u ell m => d.psi2 u ell m + mul 2 (-2) (d.sigma u) (bar 2 (d.sigmaDot u)) ell m)
    (f' := mul 2 (-2) (d.sigmaDot u) (bar 2 (d.sigmaDot u))) (fun m hm => mass_rate hmul hd u 1 m (by norm_num) (by norm_num) hm) i
  have r := ((r1.add (r2.div_const 2)).neg).add ((hasDerivAt_id u).mul r3)
  refine Eq.subst (motive := fun x => HasDerivAt _ x u) ?_ r
  have p := spin_pair hmul hd hs u i
  have p2 : (pair i fun ell m => mul 2 (-2) (d.sigmaDot u) (bar 2 (d.sigma u)) ell m + mul 2 (-2) (d.sigma u) (bar 2 (d.sigmaDot u)) ell m) = intA i b (d.sigmaDot u) (d.sigma u) + intA i b (d.sigma u) (d.sigmaDot u) := by
    rw [← pair_A hmul, ← pair_A hmul]
    unfold pair
    ring
  rw [vec_chi, p, p2, pair_A hmul]
  have a1 := congrArg Complex.re (conj_A i b (d.sigma u) (d.sigmaDot u))
  have v' := congrArg Complex.re v
  rw [show (-1 / (32 * (Real.pi : ℂ))) = ((-1 / (32 * Real.pi) : ℝ) : ℂ) by push_cast; ring, Complex.re_ofReal_mul, Complex.ofReal_re] at v'
  rw [v']
  generalize (pair i fun ell m => d.psi2 u ell m + mul 2 (-2) (d.sigma u) (bar 2 (d.sigmaDot u)) ell m).re = M at *
  generalize intA i b (d.sigma u) (d.sigmaDot u) = A at *
  generalize intA i b (d.sigmaDot u) (d.sigma u) = A' at *
  generalize intA i b (d.sigmaDot u) (d.sigmaDot u) = A'' at *
  generalize intB i b (d.sigma u) (d.sigmaDot u) = B at *
  generalize intB i b (d.sigmaDot u) (d.sigma u) = B' at *
  simp at a1
  have hpi := Real.pi_pos
  simp
  field_simp
  linarith

end

/-! ## Data with a shear that grows linearly in time -/

/-- The product defined by its modes. -/
noncomputable def prod (b : Int) : Int → Int → Modes → Modes → Modes := fun s t f g ell m =>
  solid fun θ φ => conj (Y (s + t) ell m (rotor θ φ)) * (field s 0 b f θ φ * field t 0 b g θ φ)

theorem prod_product (b : Int) : IsProduct b (prod b) := fun _ _ _ _ _ _ _ _ => rfl

/-- A mass of 1 at the time 0, with the shear `u c`. -/
noncomputable def linear (b : Int) (c : Modes) : History where
  psi1 := fun u ell m => -(u ^ 2 : ℝ) * prod b 2 (-1) c (ethGHP (-2) (bar 2 c)) ell m
  psi2 := fun _ ell _ => if ell = 0 then -((√(4 * Real.pi) : ℝ) : ℂ) else 0
  sigma := fun u ell m => u * c ell m
  sigmaDot := fun _ => c
  sigmaDdot := fun _ _ _ => 0

theorem prod_left (b s t : Int) (k : ℂ) (f g : Modes) (ell m : Int) : prod b s t (fun ell m => k * f ell m) g ell m = k * prod b s t f g ell m := by
  unfold prod
  rw [← solid_const]
  congr 1
  funext θ φ
  rw [field_const]
  ring

theorem prod_right (b s t : Int) (k : ℂ) (f g : Modes) (ell m : Int) : prod b s t f (fun ell m => k * g ell m) ell m = k * prod b s t f g ell m := by
  unfold prod
  rw [← solid_const]
  congr 1
  funext θ φ
  rw [field_const]
  ring

theorem prod_real (b : Int) (c : Modes) (m : Int) (hm : |m| ≤ 1) : (-1) ^ (0 + m).natAbs * conj (prod b 2 (-2) c (bar 2 c) 1 (-m)) = prod b 2 (-2) c (bar 2 c) 1 m := by
  have hm' := abs_le.1 hm
  unfold prod
  rw [← solid_conj ((Y_C _ 1 (-m) (by omega) (by omega)).conj.mul ((C.field 2 0 b c).mul (C.field (-2) 0 b (bar 2 c)))), ← solid_const]
  congr 1
  funext θ φ
  rw [map_mul, map_mul, Complex.conj_conj, field_conj, show ((2 : Int) + -2) = 0 by norm_num, Y_conj 0 1 m _ hm, neg_zero]
  have := conj_bar 2 0 b c θ φ
  rw [this]
  ring

/-- C69: the hypothesis on the data is met by a shear of any modes that grows linearly in time. -/
theorem linear_bondi (b : Int) (c : Modes) : Bondi (prod b) (linear b c) where
  news := fun u ell m => by
    have h : HasDerivAt (fun u : ℝ => (u : ℂ) * c ell m) (((1 : ℝ) : ℂ) * c ell m) u := ((hasDerivAt_id u).ofReal_comp).mul_const (c ell m)
    rw [Complex.ofReal_one, one_mul] at h
    exact h
  news' := fun u ell m => hasDerivAt_const u _
  dpsi2 := fun u ell m h1 h2 => by
    have h0 : 0 ≤ ell := (abs_nonneg m).trans h2
    have e3 : ethGHP (-1) ((linear b c).psi3 u) ell m = 0 := by
      have := Verif.Props.Charges.eth_eth_low (bar 2 c) ell m h0 h1
      unfold History.psi3 linear
      unfold ethGHP at this ⊢
      linear_combination -this
    have e4 : (linear b c).psi4 u = fun ell m => (0 : ℂ) * c ell m := by
      funext ell m
      unfold History.psi4 linear bar
      simp
    rw [e3, e4, prod_right, zero_mul, add_zero]
    exact hasDerivAt_const u _
  dpsi1 := fun u ell m h1 h2 => by
    subst h1
    have e3 : (linear b c).psi3 u = fun ell m => (-1 : ℂ) * ethGHP (-2) (bar 2 c) ell m := by
      funext ell m
      unfold History.psi3 linear
      ring
    have e0 : ethGHP 0 ((linear b c).psi2 u) 1 m = 0 := by
      rw [Verif.Props.Charges.ethGHP_one]
      unfold linear
      simp
    have es : (linear b c).sigma u = fun ell m => (u : ℂ) * c ell m := rfl
    rw [e3, e0, es, prod_left, prod_right]
    have h := ((((hasDerivAt_id u).pow 2).ofReal_comp).neg).mul_const (prod b 2 (-1) c (ethGHP (-2) (bar 2 c)) 1 m)
    refine Eq.subst (motive := fun x => HasDerivAt _ x u) ?_ h
    simp
    ring
  real := fun u ell m h1 h2 => by
    subst h1
    have e := fun (f : Modes) m => Verif.Props.Charges.eth_eth_low f 1 m (by norm_num) (by norm_num)
    have es : (linear b c).sigma u = fun ell m => (u : ℂ) * c ell m := rfl
    have ed : (linear b c).sigmaDot u = c := rfl
    have e2 : ∀ m, (linear b c).psi2 u 1 m = 0 := fun m => rfl
    show (-1) ^ (0 + m).natAbs * conj ((linear b c).psi2 u 1 (-m) + ethGHP (-1) (ethGHP (-2) (bar 2 ((linear b c).sigma u))) 1 (-m) + prod b 2 (-2) ((linear b c).sigma u) (bar 2 ((linear b c).sigmaDot u)) 1 (-m)) =
      (linear b c).psi2 u 1 m + ethGHP (-1) (ethGHP (-2) (bar 2 ((linear b c).sigma u))) 1 m + prod b 2 (-2) ((linear b c).sigma u) (bar 2 ((linear b c).sigmaDot u)) 1 m
    rw [e, e, e2, e2, ed, es, prod_left, prod_left, zero_add, zero_add, zero_add, zero_add, map_mul, Complex.conj_ofReal, ← prod_real b c m h2]
    ring_nf

/-- The mode (2, 2). -/
noncomputable def c22 : Modes := fun ell m => if ell = 2 ∧ m = 2 then 1 else 0

/-- Its strain at the times 0 and 1, and the derivative. -/
noncomputable def h22 : WM ℝ Unit ℂ := ⟨[0, 1], [(), ()], [[0, 0, 0, 0, 0], [2, 0, 0, 0, 0]], 5, 2, 2⟩
noncomputable def hdot22 : WM ℝ Unit ℂ := ⟨[0, 1], [(), ()], [[2, 0, 0, 0, 0], [2, 0, 0, 0, 0]], 5, 2, 2⟩

theorem bar22 (m : Int) : bar 2 c22 2 m = if m = -2 then 1 else 0 := by
  unfold bar c22
  by_cases h : m = -2
  · subst h
    simp
  · rw [if_neg (by omega), if_neg h]
    simp

theorem strain22 : Strain 2 (linear 2 c22) h22 hdot22 where
  valid := ⟨rfl, rfl, by intro r hr; simp [h22] at hr; rcases hr with rfl | rfl <;> rfl, by decide, by decide, by decide⟩
  valid' := ⟨rfl, rfl, by intro r hr; simp [hdot22] at hr; rcases hr with rfl | rfl <;> rfl, by decide, by decide, by decide⟩
  cols := by decide
  cols' := by decide
  times := rfl
  lo := rfl
  lo' := rfl
  hi := rfl
  hi' := rfl
  strain := by
    intro k u hu ell m h1 h2 h3
    obtain rfl : ell = 2 := by omega
    have e : bar 2 ((linear 2 c22).sigma u) 2 m = u * bar 2 c22 2 m := by
      unfold linear bar
      simp only [map_mul, Complex.conj_ofReal]
      ring
    rw [e, bar22]
    have h3 := abs_le.1 h3
    have hm : m = -2 ∨ m = -1 ∨ m = 0 ∨ m = 1 ∨ m = 2 := by omega
    match k with
    | 0 =>
      obtain rfl : 0 = u := Option.some.inj hu
      rcases hm with rfl | rfl | rfl | rfl | rfl <;> norm_num [modesOf, Verif.Spec.Slicing.modeAt, h22, Verif.Modes.lmIndex] <;> rfl
    | 1 =>
      obtain rfl : 1 = u := Option.some.inj hu
      rcases hm with rfl | rfl | rfl | rfl | rfl <;> norm_num [modesOf, Verif.Spec.Slicing.modeAt, h22, Verif.Modes.lmIndex] <;> rfl
    | k + 2 => cases hu
  rate := by
    intro k u hu ell m h1 h2 h3
    obtain rfl : ell = 2 := by omega
    have e : bar 2 ((linear 2 c22).sigmaDot u) 2 m = bar 2 c22 2 m := rfl
    rw [e, bar22]
    have h3 := abs_le.1 h3
    have hm : m = -2 ∨ m = -1 ∨ m = 0 ∨ m = 1 ∨ m = 2 := by omega
    match k with
    | 0 => rcases hm with rfl | rfl | rfl | rfl | rfl <;> norm_num [modesOf, Verif.Spec.Slicing.modeAt, hdot22, Verif.Modes.lmIndex] <;> rfl
    | 1 => rcases hm with rfl | rfl | rfl | rfl | rfl <;> norm_num [modesOf, Verif.Spec.Slicing.modeAt, hdot22, Verif.Modes.lmIndex] <;> rfl
    | k + 2 => cases hu

theorem field22 (θ φ : ℝ) : field 2 2 2 c22 θ φ = Y 2 2 2 (rotor θ φ) := by
  unfold field
  rw [show Finset.Icc (2 : Int) 2 = {2} from rfl, Finset.sum_singleton, Finset.sum_eq_single_of_mem 2 (by decide)]
  · simp [c22]
  · intro m _ hm
    rw [show c22 2 m = 0 from if_neg (by omega), zero_mul]

/-- It carries momentum along the z axis. -/
theorem momentum22 : intA 2 2 c22 c22 = -(2 / 3) := by
  have h := Verif.Sphere.triple 2 2 2 0 2 2 2 0 (by norm_num) (by norm_num) (by norm_num) (by norm_num) (by norm_num) (by norm_num) (by norm_num) (by norm_num)
  have e : intA 2 2 c22 c22 = ((√(4 * Real.pi / 3) : ℝ) : ℂ) * Verif.Sphere.sphere fun R => conj (Y 2 2 2 R) * (Y 0 1 0 R * Y 2 2 2 R) := by
    unfold intA Verif.Sphere.sphere
    rw [← solid_const]
    congr 1
    funext θ φ
    have k := field_conj 2 2 2 c22 θ φ
    rw [field22] at k
    rw [← k, field22, Verif.Props.BoostFlux.chi_field]
    have z : ((√(4 * Real.pi / 3) : ℝ) : ℂ) * Y 0 1 0 (rotor θ φ) = (Real.cos θ : ℝ) := Verif.Sphere.Y_cos θ φ
    have z' : ((nHat 2 θ φ : ℝ) : ℂ) = (Real.cos θ : ℝ) := rfl
    rw [z', ← z]
    ring
  rw [e, h, if_pos (by norm_num)]
  have r6 : √6 * √6 = 6 := Real.mul_self_sqrt (by norm_num)
  have p6 : √6 ≠ 0 := by positivity
  have g : Verif.Wigner.gaunt 0 2 2 2 0 2 = √(3 * 5 / (4 * Real.pi * 5)) * (2 / √6) * (-2 / √6) := by
    unfold Verif.Wigner.gaunt Flux.cg
    norm_num
  have g' : √(4 * Real.pi / 3) * Verif.Wigner.gaunt 0 2 2 2 0 2 = -(2 / 3) := by
    rw [g, ← mul_assoc, ← mul_assoc, ← Real.sqrt_mul (by positivity), show 4 * Real.pi / 3 * (3 * 5 / (4 * Real.pi * 5)) = 1 by field_simp, Real.sqrt_one]
    field_simp
    nlinarith
  rw [← Complex.ofReal_mul, g']
  norm_num

/-- C69: a case where the boost charge does not decrease at the rate of the boost flux: it changes at the rate of four times the flux, which is not zero. -/
theorem boost_flux_not_rate : ∃ (b : Int) (d : History) (h hdot : WM ℝ Unit ℂ), Bondi (prod b) d ∧ IsProduct b (prod b) ∧ Strain b d h hdot ∧
    ∀ (interp : WM ℝ Unit ℂ → List ℝ → WM ℝ Unit ℂ) (dot : WM ℝ Unit ℂ → WM ℝ Unit ℂ) (N : ℝ → Fin 3 → ℝ) (F : List (ℝ × ℝ × ℝ)),
      (∀ u, bondiBoostCharge (prod b) (d.at u) = .ok (List.ofFn (N u))) → BoostFlux.boostFlux interp Weights.h (-2) dot h (some (Weights.hdot, ⟨-2, hdot⟩)) = .ok F →
      ∃ q, F[1]? = some q ∧ h.t[1]? = some 1 ∧ HasDerivAt (fun u => N u 2) (-(1 / (6 * Real.pi))) 1 ∧ q.2.2 = -(1 / (24 * Real.pi)) ∧ ¬ HasDerivAt (fun u => N u 2) (-q.2.2) 1 := by
  refine ⟨2, linear 2 c22, h22, hdot22, linear_bondi 2 c22, prod_product 2, strain22, fun interp dot N F hN hF => ?_⟩
  obtain ⟨N', F', hN', hF', hr⟩ := boost_balance_partial (prod_product 2) (linear_bondi 2 c22) strain22 interp dot (some (Weights.hdot, ⟨-2, hdot22⟩)) (Or.inr rfl)
  obtain rfl : F' = F := Except.ok.inj (hF'.symm.trans hF)
  obtain rfl : N' = N := by
    funext u
    exact List.ofFn_injective (Except.ok.inj ((hN' u).symm.trans (hN u)))
  obtain ⟨q, hq, hd⟩ := hr 1 1 rfl
  have hd : HasDerivAt (fun u => N' u 2) (4 * q.2.2) 1 := hd 2
  have s := strain22
  obtain ⟨F2, hF2, -, vF⟩ := Verif.Props.BoostFlux.boost_flux_integral interp dot h22 (some (Weights.hdot, ⟨-2, hdot22⟩)) ⟨-2, hdot22⟩ (Or.inr rfl) rfl s.valid s.cols s.valid' s.cols' s.times rfl rfl
  obtain rfl : F2 = F' := Except.ok.inj (hF2.symm.trans hF)
  obtain ⟨q', hq', v⟩ := vF 1 1 rfl
  obtain rfl : q' = q := Option.some.inj (hq'.symm.trans hq)
  have v : ((q'.2.2 : ℝ) : ℂ) = -1 / (32 * Real.pi) * solid (integrand 2 2 (chi 2) 1 (modesOf h22 1) (modesOf hdot22 1)) := v 2
  have es : (linear 2 c22).sigma 1 = c22 := by
    funext ell m
    show ((1 : ℝ) : ℂ) * c22 ell m = c22 ell m
    rw [Complex.ofReal_one, one_mul]
  have bs := boost_solid (s.strain 1 1 rfl) (s.rate 1 1 rfl) 2 1
  rw [es] at bs
  have ed : (linear 2 c22).sigmaDot 1 = c22 := rfl
  rw [ed, momentum22, sub_self] at bs
  rw [bs] at v
  have hq : q'.2.2 = -(1 / (24 * Real.pi)) := by
    have : ((q'.2.2 : ℝ) : ℂ) = ((-(1 / (24 * Real.pi)) : ℝ) : ℂ) := by
      rw [v]
      push_cast
      have : (Real.pi : ℂ) ≠ 0 := by exact_mod_cast Real.pi_ne_zero
      simp
      field_simp
      norm_num
    exact_mod_cast this
  have hd' : HasDerivAt (fun u => N' u 2) (-(1 / (6 * Real.pi))) 1 := by
    refine Eq.subst (motive := fun x => HasDerivAt _ x 1) ?_ hd
    rw [hq]
    have := Real.pi_ne_zero
    field_simp
    norm_num
  refine ⟨q', hq', rfl, hd', hq, fun h => ?_⟩
  have := h.unique hd'
  rw [hq] at this
  have hpi := Real.pi_pos
  field_simp at this
  norm_num at this

/-- The hypotheses of the theorems on balance are met by this example. -/
example (dflt spin : Int) (interp : WM ℝ Unit ℂ → List ℝ → WM ℝ Unit ℂ) (dot : WM ℝ Unit ℂ → WM ℝ Unit ℂ) :
    (∃ E p, Flux.energyFlux Weights.hdot dot hdot22 = .ok E ∧ Flux.momentumFlux interp Weights.hdot spin dot hdot22 = .ok p) ∧
    ∃ F, Flux.angularMomentumFlux interp Weights.h (-2) dot h22 (some (Weights.hdot, ⟨-2, hdot22⟩)) = .ok F := by
  obtain ⟨_, E, p, _, h1, h2, _⟩ := four_momentum_balance (prod_product 2) (linear_bondi 2 c22) strain22 dflt Weights.hdot spin interp dot hdot22 rfl
  obtain ⟨_, F, _, h3, _⟩ := angular_momentum_balance (prod_product 2) (linear_bondi 2 c22) strain22 interp dot (some (Weights.hdot, ⟨-2, hdot22⟩)) (Or.inr rfl)
  exact ⟨⟨E, p, h1, h2⟩, F, h3⟩

end Verif.Props.Balance
