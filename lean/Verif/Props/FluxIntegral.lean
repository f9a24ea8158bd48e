import Verif.Lemmas.Sphere
import Verif.Props.Flux

/-!
# C63: the fluxes are integrals over the sphere
-/

namespace Verif.Props.FluxIntegral
open Real Verif.Flux Verif.Wigner ComplexConjugate Verif.GridMultiply Verif.Spec.Sphere Verif.Spec.Flux Verif.Sphere Verif.Slicing Verif.Spec.Slicing Verif.Spec.AngMom Finset

/-- C63: the harmonics of one spin weight are orthonormal: `∫ conj(Y) Y' dΩ` is 1 if they are the same and 0 otherwise. -/
theorem harmonics_orthonormal (s l m l' m' : Int) (h0 : |s| ≤ l) (h1 : -l ≤ m) (h2 : m ≤ l) (h1' : -l' ≤ m') (h2' : m' ≤ l') :
    solid (fun θ φ => conj (Y s l m (rotor θ φ)) * Y s l' m' (rotor θ φ)) = if l = l' ∧ m = m' then 1 else 0 :=
  ortho s l m l' m' h0 h1 h2 h1' h2'

theorem mid (s j n l m a : Int) (c : ℂ) (K : ℝ → ℝ → ℂ) (hK : ∀ θ φ, K θ φ = c * Y 0 1 a (rotor θ φ)) (hn1 : -j ≤ n) (hn2 : n ≤ j) (hl : 0 ≤ l) (hm1 : -l ≤ m) (hm2 : m ≤ l)
    (ha : a = 1 ∨ a = 0 ∨ a = -1) :
    sphere (fun R => conj (Y s j n R) * (c * Y 0 1 a R * Y s l m R)) = if n = m + a then c * (gaunt 0 s l m a j : ℂ) else 0 := by
  have t := triple s j n 0 s l m a (by ring) hn1 hn2 hl hm1 hm2 ha (by simp)
  have e : (fun R => conj (Y s j n R) * (c * Y 0 1 a R * Y s l m R)) = fun R => c * (conj (Y s j n R) * (Y 0 1 a R * Y s l m R)) := by
    funext R
    ring
  rw [e, sphere_smul, t]
  split <;> simp

theorem gaunt_el (s l m a j : Int) (hl : 0 ≤ l) (hj : 0 ≤ j) : √(4 * π / 3) * gaunt 0 s l m a j = el s a j l m := by
  have hl' : (0 : ℝ) ≤ l := by exact_mod_cast hl
  have hj' : (0 : ℝ) ≤ j := by exact_mod_cast hj
  rw [gaunt_split _ _ _ _ _ _ hl hj]
  unfold el
  rw [Real.sqrt_div (show (0 : ℝ) ≤ 2 * l + 1 by positivity), neg_zero]
  have := Verif.Sphere.sqrt_inv
  linear_combination (√(2 * l + 1 : ℝ) / √(2 * j + 1 : ℝ) * cg l m a j * cg l (-s) 0 j) * this

theorem sqrt8 : √(8 * π / 3) = √2 * √(4 * π / 3) := by
  rw [← Real.sqrt_mul (by norm_num)]
  congr 1
  ring

/-- C63: the elements of `p_z` are the integrals `∫ conj(Y_jn) cos θ Y_lm dΩ`, ... -/
theorem p_z_integral (s a b j n l m : Int) (h0 : 0 ≤ a) (hj : a ≤ j ∧ j ≤ b) (hn : -j ≤ n ∧ n ≤ j) (hl : a ≤ l ∧ l ≤ b) (hm : -l ≤ m ∧ m ≤ l) :
    matEl (pZ s a b) j n l m = solid fun θ φ => conj (Y s j n (rotor θ φ)) * ((Real.cos θ : ℝ) * Y s l m (rotor θ φ)) := by
  rw [matEl_pZ s a b j n l m hj hn hl hm]
  have t := mid s j n l m 0 (√(4 * π / 3) : ℝ) (fun θ _ => (Real.cos θ : ℝ)) (fun θ φ => (Y_cos θ φ).symm) hn.1 hn.2 (by omega) hm.1 hm.2 (by simp)
  unfold sphere at t
  simp only [Y_cos] at t
  rw [t, add_zero, ← gaunt_el s l m 0 j (by omega) (by omega)]
  push_cast
  rfl

/-- ... and those of `p_plus` and `p_minus` the integrals `∫ conj(Y_jn) sin θ exp(± i φ) Y_lm dΩ`. -/
theorem p_plusminus_integral (q s a b j n l m : Int) (hq : q = 1 ∨ q = -1) (h0 : 0 ≤ a) (hj : a ≤ j ∧ j ≤ b) (hn : -j ≤ n ∧ n ≤ j) (hl : a ≤ l ∧ l ≤ b) (hm : -l ≤ m ∧ m ≤ l) :
    matEl (pPM q s a b) j n l m = solid fun θ φ => conj (Y s j n (rotor θ φ)) * ((Real.sin θ : ℝ) * Complex.exp (q * φ * Complex.I) * Y s l m (rotor θ φ)) := by
  rw [matEl_pPM q s a b j n l m hj hn hl hm]
  have t := mid s j n l m q (-q * √(8 * π / 3) : ℝ) (fun θ φ => (Real.sin θ : ℝ) * Complex.exp (q * φ * Complex.I)) (fun θ φ => (Y_sin q hq θ φ).symm) hn.1 hn.2 (by omega) hm.1 hm.2 (by omega)
  unfold sphere at t
  simp only [Y_sin q hq] at t
  rw [t, ← gaunt_el s l m q j (by omega) (by omega), sqrt8]
  split
  · push_cast; ring
  · rfl

/-! ## The energy flux -/

theorem field_fieldR (s a b : Int) (f : Int → Int → ℂ) (θ φ : ℝ) : field s a b f θ φ = fieldR s a b f (rotor θ φ) := rfl

theorem const_cont (c : ℂ) : Cont fun _ => c := continuous_const

/-- Parseval's theorem. -/
theorem parseval (s a b : Int) (h : |s| ≤ a) (f g : Int → Int → ℂ) : solid (fun θ φ => conj (field s a b f θ φ) * field s a b g θ φ) = inner a b f g := by
  have e := field_bracket s s a b f g (fun _ => 1) (const_cont 1) (fun j n l m => if j = l ∧ n = m then 1 else 0) (by
    intro j n l m h1 h2 h3 h4 h5 h6 h7 h8
    simp only [one_mul]
    exact ortho s j n l m (by omega) h3 h4 h7 h8)
  simp only [one_mul] at e
  have e1 : solid (fun θ φ => conj (field s a b f θ φ) * field s a b g θ φ) = sphere (fun R => conj (fieldR s a b f R) * fieldR s a b g R) := rfl
  rw [e1, e]
  unfold bracket Verif.Spec.AngMom.inner
  refine sum_congr rfl fun j hj => sum_congr rfl fun n hn => ?_
  rw [sum_eq_single_of_mem j hj, sum_eq_single_of_mem n hn]
  · beta_reduce; rw [if_pos ⟨rfl, rfl⟩]; ring
  · intro m _ hm
    beta_reduce; rw [if_neg (fun h => hm h.2.symm)]; ring
  · intro l _ hl
    refine sum_eq_zero fun m _ => ?_
    beta_reduce; rw [if_neg (fun h => hl h.1.symm)]; ring

/-- C63: the energy flux at each time is `∫ |hdot|² dΩ / 16 π`, where `hdot` is the function on the sphere with the given modes, of a spin weight that modes with these `ell` can have. -/
theorem energy_flux_integral (dt s : Int) (dot : WM ℝ Unit ℂ → WM ℝ Unit ℂ) (w hd : WM ℝ Unit ℂ) (hc : chooseHdot dt dot w = .ok hd) (hv : Valid hd) (hs : |s| ≤ hd.ellMin) :
    ∃ E, energyFlux dt dot w = .ok E ∧ E.length = hd.t.length ∧ ∀ (k : Nat) (hk : k < E.length),
      (E[k] : ℂ) = 1 / (16 * π) * solid fun θ φ => conj (field s hd.ellMin hd.ellMax (modesOf hd k) θ φ) * field s hd.ellMin hd.ellMax (modesOf hd k) θ φ := by
  have hE : energyFlux dt dot w = energyFlux Weights.hdot dot hd := by
    have e1 : energyFlux Weights.hdot dot hd = .ok (hd.data.map energyAt) := rfl
    unfold energyFlux
    rw [hc]; rfl
  refine ⟨_, hE.trans (Props.Flux.energy_flux dot hd hv), by simp, fun k hk => ?_⟩
  rw [parseval s _ _ hs]
  simp only [List.getElem_map, List.getElem_range]
  unfold Verif.Spec.AngMom.inner
  push_cast
  have : ∀ z : ℂ, ((Complex.normSq z : ℝ) : ℂ) = conj z * z := fun z => by rw [Complex.normSq_eq_conj_mul_self]
  simp only [this]
  ring

/-! ## The momentum flux -/

theorem bracket_cos (s a b : Int) (h0 : 0 ≤ a) (f g : Int → Int → ℂ) :
    bracket a b f (matEl (pZ s a b)) g = solid fun θ φ => conj (field s a b f θ φ) * ((Real.cos θ : ℝ) * field s a b g θ φ) := by
  have e := field_bracket s s a b f g (fun R => (√(4 * π / 3) : ℝ) * Y 0 1 0 R) (Cont.smul _ (Y_cont 0 1 0 (by norm_num) (by norm_num))) (matEl (pZ s a b)) (by
    intro j n l m h1 h2 h3 h4 h5 h6 h7 h8
    rw [p_z_integral s a b j n l m h0 ⟨h1, h2⟩ ⟨h3, h4⟩ ⟨h5, h6⟩ ⟨h7, h8⟩]
    unfold sphere
    simp only [Y_cos])
  rw [← e]
  unfold sphere
  simp only [Y_cos]
  rfl

theorem bracket_sin (q s a b : Int) (hq : q = 1 ∨ q = -1) (h0 : 0 ≤ a) (f g : Int → Int → ℂ) :
    bracket a b f (matEl (pPM q s a b)) g = solid fun θ φ => conj (field s a b f θ φ) * ((Real.sin θ : ℝ) * Complex.exp (q * φ * Complex.I) * field s a b g θ φ) := by
  have e := field_bracket s s a b f g (fun R => ((-q * √(8 * π / 3) : ℝ) : ℂ) * Y 0 1 q R) (Cont.smul _ (Y_cont 0 1 q (by omega) (by omega))) (matEl (pPM q s a b)) (by
    intro j n l m h1 h2 h3 h4 h5 h6 h7 h8
    rw [p_plusminus_integral q s a b j n l m hq h0 ⟨h1, h2⟩ ⟨h3, h4⟩ ⟨h5, h6⟩ ⟨h7, h8⟩]
    unfold sphere
    simp only [Y_sin q hq])
  rw [← e]
  unfold sphere
  simp only [Y_sin q hq]
  rfl

/-- The real integrals. -/
theorem solid_re (F : ℝ → ℝ → ℝ) : ∃ x : ℝ, solid (fun θ φ => (F θ φ : ℂ)) = x := by
  unfold solid
  refine ⟨∫ θ in (0 : ℝ)..π, ∫ φ in (0 : ℝ)..(2 * π), F θ φ * Real.sin θ, ?_⟩
  rw [← intervalIntegral.integral_ofReal]
  congr 1
  funext θ
  rw [← intervalIntegral.integral_ofReal]
  push_cast
  rfl

theorem nHat_cont (i : Fin 3) : ∃ F : Quaternion ℝ → ℂ, Cont F ∧ ∀ θ φ, F (rotor θ φ) = (nHat i θ φ : ℂ) := by
  have hz : ∀ θ φ : ℝ, ((√(4 * π / 3) : ℝ) : ℂ) * Y 0 1 0 (rotor θ φ) = (Real.cos θ : ℝ) := Y_cos
  have hp := Y_sin 1 (by simp)
  have hm := Y_sin (-1) (by simp)
  have c0 := Cont.smul ((√(4 * π / 3) : ℝ) : ℂ) (Y_cont 0 1 0 (by norm_num) (by norm_num))
  have c1 := Cont.smul (((-(1 : Int) * √(8 * π / 3) : ℝ)) : ℂ) (Y_cont 0 1 1 (by norm_num) (by norm_num))
  have c2 := Cont.smul (((-((-1 : Int) : ℝ) * √(8 * π / 3) : ℝ)) : ℂ) (Y_cont 0 1 (-1) (by norm_num) (by norm_num))
  have ex : ∀ φ : ℝ, Complex.exp ((1 : Int) * φ * Complex.I) = Complex.cos φ + Complex.sin φ * Complex.I := fun φ => by
    rw [← Complex.exp_mul_I]; push_cast; congr 1; ring
  have ex' : ∀ φ : ℝ, Complex.exp ((-1 : Int) * φ * Complex.I) = Complex.cos φ - Complex.sin φ * Complex.I := fun φ => by
    rw [sub_eq_add_neg, ← neg_mul, ← Complex.cos_neg, ← Complex.sin_neg, ← Complex.exp_mul_I]; push_cast; congr 1; ring
  fin_cases i
  · refine ⟨_, Cont.smul (1 / 2) (Cont.add c1 c2), fun θ φ => ?_⟩
    show 1 / 2 * (_ * Y 0 1 1 (rotor θ φ) + _ * Y 0 1 (-1) (rotor θ φ)) = _
    rw [hp, hm, ex, ex']
    simp [nHat]
    ring
  · refine ⟨_, Cont.smul (-Complex.I / 2) (Cont.add c1 (Cont.smul (-1) c2)), fun θ φ => ?_⟩
    show -Complex.I / 2 * (_ * Y 0 1 1 (rotor θ φ) + -1 * (_ * Y 0 1 (-1) (rotor θ φ))) = _
    rw [hp, hm, ex, ex']
    simp [nHat]
    have := Complex.I_mul_I
    linear_combination (-Complex.sin θ * Complex.sin φ) * this
  · refine ⟨_, c0, fun θ φ => ?_⟩
    show _ * Y 0 1 0 (rotor θ φ) = _
    rw [hz]
    simp [nHat]

/-- C63: the momentum flux at each time is the vector `∫ |hdot|² n dΩ / 16 π`, with the unit vector `n = (sin θ cos φ, sin θ sin φ, cos θ)`. -/
theorem momentum_flux_integral (interp : WM ℝ Unit ℂ → List ℝ → WM ℝ Unit ℂ) (dt spin : Int) (dot : WM ℝ Unit ℂ → WM ℝ Unit ℂ)
    (w hd : WM ℝ Unit ℂ) (hc : chooseHdot dt dot w = .ok hd) (hv : Valid hd) (hn : 2 ≤ hd.nCols) :
    ∃ P, momentumFlux interp dt spin dot w = .ok P ∧ P.length = hd.t.length ∧ ∀ (k : Nat) (hk : k < P.length) (i : Fin 3),
      (((![P[k].1, P[k].2.1, P[k].2.2] : Fin 3 → ℝ) i : ℝ) : ℂ) =
        1 / (16 * π) * solid fun θ φ => conj (field (-2) hd.ellMin hd.ellMax (modesOf hd k) θ φ) * field (-2) hd.ellMin hd.ellMax (modesOf hd k) θ φ * nHat i θ φ := by
  refine ⟨_, Props.Flux.momentum_flux interp dt spin dot w hd hc hv hn, by simp, fun k hk i => ?_⟩
  simp only [List.getElem_map, List.getElem_range]
  have h0 : 0 ≤ hd.ellMin := hv.min
  rw [bracket_sin 1 (-2) _ _ (by simp) h0, bracket_cos (-2) _ _ h0]
  generalize modesOf hd k = f
  generalize hd.ellMin = a
  generalize hd.ellMax = b
  -- the three real integrals
  have real : ∀ i : Fin 3, ∃ x : ℝ, solid (fun θ φ => conj (field (-2) a b f θ φ) * field (-2) a b f θ φ * nHat i θ φ) = x := by
    intro i
    obtain ⟨x, hx⟩ := solid_re fun θ φ => Complex.normSq (field (-2) a b f θ φ) * nHat i θ φ
    refine ⟨x, ?_⟩
    rw [← hx]
    congr 1
    funext θ φ
    push_cast
    rw [Complex.normSq_eq_conj_mul_self]
  choose x hx using real
  have hz : solid (fun θ φ => conj (field (-2) a b f θ φ) * ((Real.cos θ : ℝ) * field (-2) a b f θ φ)) = x 2 := by
    rw [← hx]
    congr 1
    funext θ φ
    have : nHat 2 θ φ = Real.cos θ := by simp [nHat]
    rw [this]
    ring
  have hp : solid (fun θ φ => conj (field (-2) a b f θ φ) * ((Real.sin θ : ℝ) * Complex.exp ((1 : Int) * φ * Complex.I) * field (-2) a b f θ φ)) = x 0 + x 1 * Complex.I := by
    rw [← hx 0, ← hx 1, mul_comm _ Complex.I]
    obtain ⟨F0, c0, e0⟩ := nHat_cont 0
    obtain ⟨F1, c1, e1⟩ := nHat_cont 1
    have q : ∀ (i : Fin 3) (F : Quaternion ℝ → ℂ), (∀ θ φ, F (rotor θ φ) = (nHat i θ φ : ℂ)) → solid (fun θ φ => conj (field (-2) a b f θ φ) * field (-2) a b f θ φ * nHat i θ φ) = sphere fun R => conj (fieldR (-2) a b f R) * fieldR (-2) a b f R * F R := by
      intro i F hF
      unfold sphere
      simp only [hF]
      rfl
    have cf := fieldR_cont (-2) a b f
    rw [q 0 F0 e0, q 1 F1 e1, ← sphere_smul, ← sphere_add (Cont.mul (Cont.mul (Cont.conj cf) cf) c0) (Cont.smul _ (Cont.mul (Cont.mul (Cont.conj cf) cf) c1))]
    unfold sphere
    simp only [e0, e1]
    congr 1
    funext θ φ
    have ex : Complex.exp ((1 : Int) * φ * Complex.I) = Complex.cos φ + Complex.sin φ * Complex.I := by
      rw [← Complex.exp_mul_I]; push_cast; congr 1; ring
    rw [ex, ← field_fieldR]
    simp [nHat]
    ring
  rw [hz, hp, hx]
  fin_cases i
  · simp; ring
  · simp; ring
  · simp; ring

/-- The hypotheses are met by the example waveform: its energy flux, and so the integral, is `15 / 16π` at the first time. -/
example (dot : WM ℝ Unit ℂ → WM ℝ Unit ℂ) : ∃ E, energyFlux Weights.hdot dot Props.Flux.sample = .ok E ∧ E.length = 2 ∧ ∀ (k : Nat) (hk : k < E.length),
    (E[k] : ℂ) = 1 / (16 * π) * solid fun θ φ => conj (field (-2) 2 2 (modesOf Props.Flux.sample k) θ φ) * field (-2) 2 2 (modesOf Props.Flux.sample k) θ φ :=
  energy_flux_integral Weights.hdot (-2) dot Props.Flux.sample Props.Flux.sample rfl Props.Flux.sample_valid (by decide)

example (interp : WM ℝ Unit ℂ → List ℝ → WM ℝ Unit ℂ) (dot : WM ℝ Unit ℂ → WM ℝ Unit ℂ) :
    ∃ P, momentumFlux interp Weights.hdot (-2) dot Props.Flux.sample = .ok P ∧ P.length = 2 := by
  obtain ⟨P, h1, h2, _⟩ := momentum_flux_integral interp Weights.hdot (-2) dot Props.Flux.sample Props.Flux.sample rfl Props.Flux.sample_valid (by decide)
  exact ⟨P, h1, h2⟩

end Verif.Props.FluxIntegral
