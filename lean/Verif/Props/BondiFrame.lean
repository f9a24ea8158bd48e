import Verif.Lemmas.Aberration
import Verif.Lemmas.SmoothModes
import Verif.Props.AbdModes
import Verif.Props.FluxCovariance

/-!
# C91: boosts and supertranslations take Bondi data to Bondi data
-/

namespace Verif.Props.BondiFrame
open Verif.Spec.BondiFrame Verif.Spec.SphereOps Verif.AbdTransform Verif.Jets ComplexConjugate

variable {beta : ℝ} {alpha : ℝ → ℝ → ℝ} {F : Fin 6 → Field}

/-- The supertranslation as a field. -/
def A (alpha : ℝ → ℝ → ℝ) : Field := fun _ θ φ => (alpha θ φ : ℂ)

theorem jet_w (hb : 0 ≤ beta) (hb1 : beta < 1) (u θ φ : ℝ) : Jet 0 (fun _ θ _ => (w beta θ : ℂ)) 0 (-(w beta θ * kap beta θ)) u θ φ := by
  have h : HasFDerivAt (fun p : E => ((w beta p.2.1 : ℝ) : ℂ)) _ (u, θ, φ) := Complex.ofRealCLM.hasFDerivAt.comp (u, θ, φ)
    (HasDerivAt.comp_hasFDerivAt (h₂ := w beta) (u, θ, φ) (w_der (beta := beta) θ) ((ContinuousLinearMap.fst ℝ ℝ ℝ).comp (ContinuousLinearMap.snd ℝ ℝ (ℝ × ℝ))).hasFDerivAt)
  refine ⟨⟨((gamma beta * (beta * Real.sin θ) : ℝ) : ℂ), 0, ⟨⟨_, h, ?_, ?_, ?_⟩⟩, ?_⟩⟩
  · simp
  · simp
  · simp
  · rw [w_kap hb hb1]
    have h2 : ((√2 : ℝ) : ℂ) ≠ 0 := by exact_mod_cast (by positivity : √2 ≠ 0)
    push_cast
    field_simp
    simp

theorem kap_der (hb : 0 ≤ beta) (hb1 : beta < 1) (θ : ℝ) :
    HasDerivAt (kap beta) (beta * Real.cos θ / (√2 * (1 - beta * Real.cos θ)) - √2 * kap beta θ ^ 2) θ := by
  have hd := (den_pos hb hb1 θ).ne'
  have h2 : √2 ≠ 0 := by positivity
  have h := ((Real.hasDerivAt_sin θ).const_mul beta).div ((((Real.hasDerivAt_cos θ).const_mul beta).const_sub 1).const_mul √2) (mul_ne_zero h2 hd)
  refine Eq.subst (motive := fun d => HasDerivAt (kap beta) d θ) ?_ h
  unfold kap
  field_simp

theorem jet_kap (hb : 0 ≤ beta) (hb1 : beta < 1) (u θ φ : ℝ) (h0 : 0 < θ) (h1 : θ < Real.pi) : Jet 1 (fun _ θ _ => (kap beta θ : ℂ)) 0 ((kap beta θ : ℂ) ^ 2) u θ φ := by
  have h : HasFDerivAt (fun p : E => ((kap beta p.2.1 : ℝ) : ℂ)) _ (u, θ, φ) := Complex.ofRealCLM.hasFDerivAt.comp (u, θ, φ)
    (HasDerivAt.comp_hasFDerivAt (h₂ := kap beta) (u, θ, φ) (kap_der hb hb1 θ) ((ContinuousLinearMap.fst ℝ ℝ ℝ).comp (ContinuousLinearMap.snd ℝ ℝ (ℝ × ℝ))).hasFDerivAt)
  refine ⟨⟨((beta * Real.cos θ / (√2 * (1 - beta * Real.cos θ)) - √2 * kap beta θ ^ 2 : ℝ) : ℂ), 0, ⟨⟨_, h, ?_, ?_, ?_⟩⟩, ?_⟩⟩
  · simp
  · simp
  · simp
  · have hd := (den_pos hb hb1 θ).ne'
    have hs := (Real.sin_pos_of_pos_of_lt_pi h0 h1).ne'
    have h2 : √2 ≠ 0 := by positivity
    have e : Real.cos θ / Real.sin θ * kap beta θ = beta * Real.cos θ / (√2 * (1 - beta * Real.cos θ)) := by
      unfold kap
      field_simp
    have key : kap beta θ ^ 2 = -(beta * Real.cos θ / (√2 * (1 - beta * Real.cos θ)) - √2 * kap beta θ ^ 2 - Real.cos θ / Real.sin θ * kap beta θ) / √2 := by
      rw [e]
      field_simp
      ring
    have := congrArg (fun x : ℝ => (x : ℂ)) key
    push_cast at this ⊢
    refine this.trans ?_
    ring

theorem jet_u (u θ φ : ℝ) : Jet 0 (fun u _ _ => (u : ℂ)) 1 0 u θ φ := by
  have h : HasFDerivAt (fun p : E => ((p.1 : ℝ) : ℂ)) _ (u, θ, φ) := Complex.ofRealCLM.hasFDerivAt.comp (u, θ, φ) (ContinuousLinearMap.fst ℝ ℝ (ℝ × ℝ)).hasFDerivAt
  exact ⟨⟨0, 0, ⟨⟨_, h, by simp, by simp, by simp⟩⟩, by simp⟩⟩

theorem jet_A (s : Int) {f : Field} (hf : Smooth f) (hc : ∀ u v θ φ, f u θ φ = f v θ φ) (u θ φ : ℝ) (h0 : 0 < θ) (h1 : θ < Real.pi) : Jet s f 0 (eth s f u θ φ) u θ φ := by
  have j := smooth_jet s hf u θ φ h0 h1
  have : dt f u θ φ = 0 := by
    unfold dt
    rw [show (fun x => f x θ φ) = fun _ => f u θ φ from funext fun x => hc x u θ φ]
    exact deriv_const _ _
  rwa [this] at j

/-- `e` is a function with `ė = ðk/k` and `ðe - e ė = -ððα`. -/
theorem jet_e (hb : 0 ≤ beta) (hb1 : beta < 1) (ha : Smooth (A alpha)) (u θ φ : ℝ) (h0 : 0 < θ) (h1 : θ < Real.pi) :
    Jet 1 (ee beta alpha) (kap beta θ) (kap beta θ * ee beta alpha u θ φ - eth 1 (eth 0 (A alpha)) u θ φ) u θ φ := by
  have j1 := (jet_kap hb hb1 u θ φ h0 h1).mul ((jet_u u θ φ).add ((jet_A 0 ha (fun _ _ _ _ => rfl) u θ φ h0 h1).smul (-1)))
  have j2 := j1.add ((jet_A 1 (smooth_eth 0 ha) (fun _ _ _ _ => rfl) u θ φ h0 h1).smul (-1))
  refine Jet.cast (j2.congr (g := ee beta alpha) h0 h1 fun u θ φ _ _ => ?_) ?_ ?_
  · unfold ee A
    push_cast
    ring
  · ring
  · unfold ee A
    push_cast
    ring

/-! ## The fields in the old directions -/

noncomputable def G (beta : ℝ) (alpha : ℝ → ℝ → ℝ) (F : Fin 6 → Field) (c : Fin 6) : Field := fun u θ φ =>
  (fprime (gamma beta) (dirAt beta alpha F (fun _ => u) θ φ) 0 u).getD c 0

theorem moved_eq (c : Fin 6) : moved beta alpha F c = fun u θ φ => G beta alpha F c (oldTime beta alpha u (thetaOf beta θ) φ) (thetaOf beta θ) φ := by
  funext u θ φ
  have : u / factor beta (thetaOf beta θ) + alpha (thetaOf beta θ) φ = oldTime beta alpha u (thetaOf beta θ) φ := by
    unfold oldTime
    rw [factor_eq, div_div_eq_mul_div, div_one]
  simp only [moved, G, this]

theorem ethOp_div (s : Int) (f : ℝ → ℝ → ℂ) (c : ℂ) (θ φ : ℝ) : ethOp s (fun θ φ => f θ φ / c) θ φ = ethOp s f θ φ / c := by
  unfold ethOp
  rw [deriv_div_const, deriv_div_const]
  ring

theorem e_eq (u θ φ : ℝ) : ethUprime (dirAt beta alpha F (fun _ => u) θ φ) u = ee beta alpha u θ φ := by
  have h1 : ethOp 0 (fun θ _ => ((beta * Real.cos θ : ℝ) : ℂ)) θ φ = ((beta * Real.sin θ : ℝ) : ℂ) := by
    have h := ((Real.hasDerivAt_cos θ).const_mul beta).ofReal_comp
    unfold ethOp
    rw [h.deriv, deriv_const]
    push_cast
    ring
  unfold ethUprime ethkOverK ethAlpha ee kap dirAt
  rw [h1]
  unfold Spec.BondiFrame.eth
  push_cast
  rw [div_div]

theorem ee_eq (u θ φ : ℝ) : ethEthAlpha (dirAt beta alpha F (fun _ => u) θ φ) = eth 1 (eth 0 (A alpha)) u θ φ := by
  have h : eth 1 (eth 0 (A alpha)) u θ φ = ethOp 1 (ethOp 0 (fun θ φ => (alpha θ φ : ℂ))) θ φ / (√2 : ℝ) / (√2 : ℝ) := by
    unfold Spec.BondiFrame.eth A
    rw [ethOp_div]
  rw [h]
  unfold ethEthAlpha dirAt
  have h2 : ((√2 : ℝ) : ℂ) * (√2 : ℝ) = 2 := by exact_mod_cast congrArg (fun x : ℝ => (x : ℂ)) (Real.mul_self_sqrt (by norm_num : (0 : ℝ) ≤ 2))
  rw [div_div, h2]
  ring

theorem w_eq (u θ φ : ℝ) : oneOverK (gamma beta) (dirAt beta alpha F (fun _ => u) θ φ) = w beta θ := rfl

theorem G0 (u θ φ : ℝ) : G beta alpha F 0 u θ φ = (w beta θ : ℂ) ^ 3 * (F 0 u θ φ - 4 * ee beta alpha u θ φ * F 1 u θ φ + 6 * ee beta alpha u θ φ ^ 2 * F 2 u θ φ
    - 4 * ee beta alpha u θ φ ^ 3 * F 3 u θ φ + ee beta alpha u θ φ ^ 4 * F 4 u θ φ) := by
  show hornerPsi0 (F 0 u θ φ) (F 1 u θ φ) (F 2 u θ φ) (F 3 u θ φ) (F 4 u θ φ) (ethUprime (dirAt beta alpha F (fun _ => u) θ φ) u) ((w beta θ ^ 3 : ℝ) : ℂ) = _
  rw [e_eq]
  unfold hornerPsi0
  push_cast
  ring

theorem G1 (u θ φ : ℝ) : G beta alpha F 1 u θ φ = (w beta θ : ℂ) ^ 3 * (F 1 u θ φ - 3 * ee beta alpha u θ φ * F 2 u θ φ + 3 * ee beta alpha u θ φ ^ 2 * F 3 u θ φ
    - ee beta alpha u θ φ ^ 3 * F 4 u θ φ) := by
  show hornerPsi1 (F 1 u θ φ) (F 2 u θ φ) (F 3 u θ φ) (F 4 u θ φ) (ethUprime (dirAt beta alpha F (fun _ => u) θ φ) u) ((w beta θ ^ 3 : ℝ) : ℂ) = _
  rw [e_eq]
  unfold hornerPsi1
  push_cast
  ring

theorem G2 (u θ φ : ℝ) : G beta alpha F 2 u θ φ = (w beta θ : ℂ) ^ 3 * (F 2 u θ φ - 2 * ee beta alpha u θ φ * F 3 u θ φ + ee beta alpha u θ φ ^ 2 * F 4 u θ φ) := by
  show hornerPsi2 (F 2 u θ φ) (F 3 u θ φ) (F 4 u θ φ) (ethUprime (dirAt beta alpha F (fun _ => u) θ φ) u) ((w beta θ ^ 3 : ℝ) : ℂ) = _
  rw [e_eq]
  unfold hornerPsi2
  push_cast
  ring

theorem G3 (u θ φ : ℝ) : G beta alpha F 3 u θ φ = (w beta θ : ℂ) ^ 3 * (F 3 u θ φ - ee beta alpha u θ φ * F 4 u θ φ) := by
  show hornerPsi3 (F 3 u θ φ) (F 4 u θ φ) (ethUprime (dirAt beta alpha F (fun _ => u) θ φ) u) ((w beta θ ^ 3 : ℝ) : ℂ) = _
  rw [e_eq]
  unfold hornerPsi3
  push_cast
  ring

theorem G4 (u θ φ : ℝ) : G beta alpha F 4 u θ φ = (w beta θ : ℂ) ^ 3 * F 4 u θ φ := by
  show hornerPsi4 (F 4 u θ φ) ((w beta θ ^ 3 : ℝ) : ℂ) = _
  unfold hornerPsi4
  push_cast
  ring

theorem G5 (u θ φ : ℝ) : G beta alpha F 5 u θ φ = (w beta θ : ℂ) * (F 5 u θ φ - eth 1 (eth 0 (A alpha)) u θ φ) := by
  show newSigma (F 5 u θ φ) (ethEthAlpha (dirAt beta alpha F (fun _ => u) θ φ)) ((w beta θ : ℝ) : ℂ) = _
  rw [ee_eq]
  unfold newSigma
  ring

/-! ## The identities -/

/-- `ψ̇₃ = ðψ₄`. -/
theorem dt_psi3 (hF : Bondi F) (hs : ∀ c, Smooth (F c)) (u θ φ : ℝ) (h0 : 0 < θ) (h1 : θ < Real.pi) : dt (F 3) u θ φ = eth (-2) (F 4) u θ φ := by
  have hS := smooth_dt (Smooth_bar (hs 5))
  have j3 := ((smooth_jet (-1) (smooth_eth (-2) hS) u θ φ h0 h1).smul (-1)).congr (g := F 3) h0 h1 fun u θ φ h0 h1 => by rw [hF.c3 u θ φ h0 h1]; ring
  have j4 := ((smooth_jet (-2) (smooth_dt hS) u θ φ h0 h1).smul (-1)).congr (g := F 4) h0 h1 fun u θ φ h0 h1 => by rw [hF.c4 u θ φ h0 h1]; ring
  rw [j3.dt, j4.eth, dt_eth (-2) hS u θ φ h0 h1]

theorem jet_w3 (hb : 0 ≤ beta) (hb1 : beta < 1) (u θ φ : ℝ) : Jet 0 (fun _ θ _ => (w beta θ : ℂ) ^ 3) 0 (-3 * (w beta θ : ℂ) ^ 3 * kap beta θ) u θ φ := by
  have j := ((jet_w hb hb1 u θ φ).mul (jet_w hb hb1 u θ φ)).mul (jet_w hb hb1 u θ φ)
  have e : (fun (_ θ _ : ℝ) => (w beta θ : ℂ) ^ 3) = fun _ θ _ => (w beta θ : ℂ) * w beta θ * w beta θ := by
    funext _ θ _
    ring
  rw [e]
  exact Jet.cast (j.spin (by norm_num)) (by ring1) (by ring1)

theorem new_b0 (hb : 0 ≤ beta) (hb1 : beta < 1) (ha : Smooth (A alpha)) (hF : Bondi F) (hs : ∀ c, Smooth (F c)) (u θ φ : ℝ) (h0 : 0 < θ) (h1 : θ < Real.pi) :
    dt (moved beta alpha F 0) u θ φ = eth 1 (moved beta alpha F 1) u θ φ + 3 * moved beta alpha F 5 u θ φ * moved beta alpha F 2 u θ φ := by
  rw [moved_eq, moved_eq, moved_eq, moved_eq]
  have hp0 := theta_pos hb1 h0 h1
  have hp1 := theta_lt beta θ
  have d0 := hF.b0 (oldTime beta alpha u (thetaOf beta θ) φ) (thetaOf beta θ) φ hp0 hp1
  have d1 := hF.b1 (oldTime beta alpha u (thetaOf beta θ) φ) (thetaOf beta θ) φ hp0 hp1
  have d2 := hF.b2 (oldTime beta alpha u (thetaOf beta θ) φ) (thetaOf beta θ) φ hp0 hp1
  have d3 := dt_psi3 hF hs (oldTime beta alpha u (thetaOf beta θ) φ) (thetaOf beta θ) φ hp0 hp1
  have je := jet_e hb hb1 ha (oldTime beta alpha u (thetaOf beta θ) φ) (thetaOf beta θ) φ hp0 hp1
  have jw := jet_w3 hb hb1 (oldTime beta alpha u (thetaOf beta θ) φ) (thetaOf beta θ) φ
  have j0 := smooth_jet 2 (hs 0) (oldTime beta alpha u (thetaOf beta θ) φ) (thetaOf beta θ) φ hp0 hp1
  have j1 := smooth_jet 1 (hs 1) (oldTime beta alpha u (thetaOf beta θ) φ) (thetaOf beta θ) φ hp0 hp1
  have j2 := smooth_jet 0 (hs 2) (oldTime beta alpha u (thetaOf beta θ) φ) (thetaOf beta θ) φ hp0 hp1
  have j3 := smooth_jet (-1) (hs 3) (oldTime beta alpha u (thetaOf beta θ) φ) (thetaOf beta θ) φ hp0 hp1
  have j4 := smooth_jet (-2) (hs 4) (oldTime beta alpha u (thetaOf beta θ) φ) (thetaOf beta θ) φ hp0 hp1
  have k0 := (jw.mul ((((j0.add ((je.mul j1).smul (-4))).add ((je.mul (je.mul j2)).smul 6)).add ((je.mul (je.mul (je.mul j3))).smul (-4))).add (je.mul (je.mul (je.mul (je.mul j4)))))).congr (g := G beta alpha F 0) hp0 hp1
    fun u θ φ _ _ => by rw [G0]; ring
  have k1 := (jw.mul (((j1.add ((je.mul j2).smul (-3))).add ((je.mul (je.mul j3)).smul 3)).add ((je.mul (je.mul (je.mul j4))).smul (-1)))).congr (g := G beta alpha F 1) hp0 hp1
    fun u θ φ _ _ => by rw [G1]; ring
  have n0 := moved_jet hb hb1 ha _ h0 h1 k0
  have n1 := moved_jet hb hb1 ha _ h0 h1 k1
  rw [n0.dt, Jet.eth (n1.spin (by norm_num) : Jet 1 _ _ _ _ _ _)]
  simp only [G1, G5, G2, d0, d1, d2, d3]
  push_cast
  ring

theorem new_b1 (hb : 0 ≤ beta) (hb1 : beta < 1) (ha : Smooth (A alpha)) (hF : Bondi F) (hs : ∀ c, Smooth (F c)) (u θ φ : ℝ) (h0 : 0 < θ) (h1 : θ < Real.pi) :
    dt (moved beta alpha F 1) u θ φ = eth 0 (moved beta alpha F 2) u θ φ + 2 * moved beta alpha F 5 u θ φ * moved beta alpha F 3 u θ φ := by
  rw [moved_eq, moved_eq, moved_eq, moved_eq]
  have hp0 := theta_pos hb1 h0 h1
  have hp1 := theta_lt beta θ
  have d1 := hF.b1 (oldTime beta alpha u (thetaOf beta θ) φ) (thetaOf beta θ) φ hp0 hp1
  have d2 := hF.b2 (oldTime beta alpha u (thetaOf beta θ) φ) (thetaOf beta θ) φ hp0 hp1
  have d3 := dt_psi3 hF hs (oldTime beta alpha u (thetaOf beta θ) φ) (thetaOf beta θ) φ hp0 hp1
  have je := jet_e hb hb1 ha (oldTime beta alpha u (thetaOf beta θ) φ) (thetaOf beta θ) φ hp0 hp1
  have jw := jet_w3 hb hb1 (oldTime beta alpha u (thetaOf beta θ) φ) (thetaOf beta θ) φ
  have j1 := smooth_jet 1 (hs 1) (oldTime beta alpha u (thetaOf beta θ) φ) (thetaOf beta θ) φ hp0 hp1
  have j2 := smooth_jet 0 (hs 2) (oldTime beta alpha u (thetaOf beta θ) φ) (thetaOf beta θ) φ hp0 hp1
  have j3 := smooth_jet (-1) (hs 3) (oldTime beta alpha u (thetaOf beta θ) φ) (thetaOf beta θ) φ hp0 hp1
  have j4 := smooth_jet (-2) (hs 4) (oldTime beta alpha u (thetaOf beta θ) φ) (thetaOf beta θ) φ hp0 hp1
  have k1 := (jw.mul (((j1.add ((je.mul j2).smul (-3))).add ((je.mul (je.mul j3)).smul 3)).add ((je.mul (je.mul (je.mul j4))).smul (-1)))).congr (g := G beta alpha F 1) hp0 hp1
    fun u θ φ _ _ => by rw [G1]; ring
  have k2 := (jw.mul ((j2.add ((je.mul j3).smul (-2))).add (je.mul (je.mul j4)))).congr (g := G beta alpha F 2) hp0 hp1
    fun u θ φ _ _ => by rw [G2]; ring
  have n1 := moved_jet hb hb1 ha _ h0 h1 k1
  have n2 := moved_jet hb hb1 ha _ h0 h1 k2
  rw [n1.dt, Jet.eth (n2.spin (by norm_num) : Jet 0 _ _ _ _ _ _)]
  simp only [G2, G5, G3, d1, d2, d3]
  push_cast
  ring


theorem new_b2 (hb : 0 ≤ beta) (hb1 : beta < 1) (ha : Smooth (A alpha)) (hF : Bondi F) (hs : ∀ c, Smooth (F c)) (u θ φ : ℝ) (h0 : 0 < θ) (h1 : θ < Real.pi) :
    dt (moved beta alpha F 2) u θ φ = eth (-1) (moved beta alpha F 3) u θ φ + moved beta alpha F 5 u θ φ * moved beta alpha F 4 u θ φ := by
  rw [moved_eq, moved_eq, moved_eq, moved_eq]
  have hp0 := theta_pos hb1 h0 h1
  have hp1 := theta_lt beta θ
  have d2 := hF.b2 (oldTime beta alpha u (thetaOf beta θ) φ) (thetaOf beta θ) φ hp0 hp1
  have d3 := dt_psi3 hF hs (oldTime beta alpha u (thetaOf beta θ) φ) (thetaOf beta θ) φ hp0 hp1
  have je := jet_e hb hb1 ha (oldTime beta alpha u (thetaOf beta θ) φ) (thetaOf beta θ) φ hp0 hp1
  have jw := jet_w3 hb hb1 (oldTime beta alpha u (thetaOf beta θ) φ) (thetaOf beta θ) φ
  have j2 := smooth_jet 0 (hs 2) (oldTime beta alpha u (thetaOf beta θ) φ) (thetaOf beta θ) φ hp0 hp1
  have j3 := smooth_jet (-1) (hs 3) (oldTime beta alpha u (thetaOf beta θ) φ) (thetaOf beta θ) φ hp0 hp1
  have j4 := smooth_jet (-2) (hs 4) (oldTime beta alpha u (thetaOf beta θ) φ) (thetaOf beta θ) φ hp0 hp1
  have k2 := (jw.mul ((j2.add ((je.mul j3).smul (-2))).add (je.mul (je.mul j4)))).congr (g := G beta alpha F 2) hp0 hp1
    fun u θ φ _ _ => by rw [G2]; ring
  have k3 := (jw.mul (j3.add ((je.mul j4).smul (-1)))).congr (g := G beta alpha F 3) hp0 hp1
    fun u θ φ _ _ => by rw [G3]; ring
  have n2 := moved_jet hb hb1 ha _ h0 h1 k2
  have n3 := moved_jet hb hb1 ha _ h0 h1 k3
  rw [n2.dt, Jet.eth (n3.spin (by norm_num) : Jet (-1) _ _ _ _ _ _)]
  simp only [G3, G5, G4, d2, d3]
  push_cast
  ring


/-- `ð̄ð̄α`, the conjugate of `ððα`. -/
noncomputable def B (alpha : ℝ → ℝ → ℝ) : Field := bar (eth 1 (eth 0 (A alpha)))

theorem smooth_B (ha : Smooth (A alpha)) : Smooth (B alpha) := Smooth_bar (smooth_eth 1 (smooth_eth 0 ha))

theorem bar5 (u θ φ : ℝ) : bar (G beta alpha F 5) u θ φ = (w beta θ : ℂ) * (bar (F 5) u θ φ - B alpha u θ φ) := by
  unfold bar
  rw [G5]
  simp [B, bar]

/-- The first derivatives of the new `σ̄`, as functions of the old time and direction. -/
theorem bar_jet (hb : 0 ≤ beta) (hb1 : beta < 1) (ha : Smooth (A alpha)) (hs : Smooth (F 5)) (u θ φ : ℝ) (h0 : 0 < θ) (h1 : θ < Real.pi) :
    dt (bar (moved beta alpha F 5)) u θ φ = (w beta (thetaOf beta θ) : ℂ) ^ 2 * dt (bar (F 5)) (oldTime beta alpha u (thetaOf beta θ) φ) (thetaOf beta θ) φ ∧
    eth (-2) (bar (moved beta alpha F 5)) u θ φ = (w beta (thetaOf beta θ) : ℂ) ^ 2 * (kap beta (thetaOf beta θ) * (bar (F 5) (oldTime beta alpha u (thetaOf beta θ) φ) (thetaOf beta θ) φ - B alpha (oldTime beta alpha u (thetaOf beta θ) φ) (thetaOf beta θ) φ)
      + eth (-2) (bar (F 5)) (oldTime beta alpha u (thetaOf beta θ) φ) (thetaOf beta θ) φ - eth (-2) (B alpha) (oldTime beta alpha u (thetaOf beta θ) φ) (thetaOf beta θ) φ
      - ee beta alpha (oldTime beta alpha u (thetaOf beta θ) φ) (thetaOf beta θ) φ * dt (bar (F 5)) (oldTime beta alpha u (thetaOf beta θ) φ) (thetaOf beta θ) φ) := by
  have hp0 := theta_pos hb1 h0 h1
  have hp1 := theta_lt beta θ
  have jb := smooth_jet (-2) (Smooth_bar hs) (oldTime beta alpha u (thetaOf beta θ) φ) (thetaOf beta θ) φ hp0 hp1
  have jB := jet_A (-2) (smooth_B ha) (fun _ _ _ _ => rfl) (oldTime beta alpha u (thetaOf beta θ) φ) (thetaOf beta θ) φ hp0 hp1
  have k := ((jet_w hb hb1 (oldTime beta alpha u (thetaOf beta θ) φ) (thetaOf beta θ) φ).mul (jb.add (jB.smul (-1)))).congr (g := bar (G beta alpha F 5)) hp0 hp1 fun u θ φ _ _ => by rw [bar5]; ring
  have n := (moved_jet hb hb1 ha _ h0 h1 k).spin (show (0 + -2 : Int) = -2 by norm_num)
  have e : bar (moved beta alpha F 5) = fun u θ φ => bar (G beta alpha F 5) (oldTime beta alpha u (thetaOf beta θ) φ) (thetaOf beta θ) φ := by
    rw [moved_eq]
    rfl
  rw [e, n.dt, n.eth]
  simp only [bar5]
  push_cast
  constructor <;> ring

theorem jet_w2 (hb : 0 ≤ beta) (hb1 : beta < 1) (u θ φ : ℝ) : Jet 0 (fun _ θ _ => (w beta θ : ℂ) ^ 2) 0 (-2 * (w beta θ : ℂ) ^ 2 * kap beta θ) u θ φ := by
  have j := (jet_w hb hb1 u θ φ).mul (jet_w hb hb1 u θ φ)
  have e : (fun (_ θ _ : ℝ) => (w beta θ : ℂ) ^ 2) = fun _ θ _ => (w beta θ : ℂ) * w beta θ := by
    funext _ θ _
    ring
  rw [e]
  exact Jet.cast (j.spin (by norm_num)) (by ring1) (by ring1)

theorem new_c (hb : 0 ≤ beta) (hb1 : beta < 1) (ha : Smooth (A alpha)) (hF : Bondi F) (hs : Smooth (F 5)) (u θ φ : ℝ) (h0 : 0 < θ) (h1 : θ < Real.pi) :
    moved beta alpha F 3 u θ φ = -eth (-2) (dt (bar (moved beta alpha F 5))) u θ φ ∧ moved beta alpha F 4 u θ φ = -dt (dt (bar (moved beta alpha F 5))) u θ φ := by
  have hp0 := theta_pos hb1 h0 h1
  have hp1 := theta_lt beta θ
  have c3 := hF.c3 (oldTime beta alpha u (thetaOf beta θ) φ) (thetaOf beta θ) φ hp0 hp1
  have c4 := hF.c4 (oldTime beta alpha u (thetaOf beta θ) φ) (thetaOf beta θ) φ hp0 hp1
  have k := (jet_w2 hb hb1 (oldTime beta alpha u (thetaOf beta θ) φ) (thetaOf beta θ) φ).mul (smooth_jet (-2) (smooth_dt (Smooth_bar hs)) (oldTime beta alpha u (thetaOf beta θ) φ) (thetaOf beta θ) φ hp0 hp1)
  have n := ((moved_jet hb hb1 ha _ h0 h1 k).spin (show (0 + -2 : Int) = -2 by norm_num)).congr (g := dt (bar (moved beta alpha F 5))) h0 h1 fun u θ φ h0 h1 => (bar_jet hb hb1 ha hs u θ φ h0 h1).1
  rw [n.dt, n.eth, moved_eq, moved_eq]
  simp only [G3, G4, c3, c4]
  push_cast
  constructor <;> ring

/-- C91: the mass aspect in the new frame is `k⁻³ (M - ð²ð̄²α)`. -/
theorem mass_aspect (hb : 0 ≤ beta) (hb1 : beta < 1) (ha : Smooth (A alpha)) (hF : Bondi F) (hs : Smooth (F 5)) (u θ φ : ℝ) (h0 : 0 < θ) (h1 : θ < Real.pi) :
    massAspect (moved beta alpha F 2) (moved beta alpha F 5) u θ φ = (w beta (thetaOf beta θ) : ℂ) ^ 3 *
      (massAspect (F 2) (F 5) (oldTime beta alpha u (thetaOf beta θ) φ) (thetaOf beta θ) φ - eth (-1) (eth (-2) (B alpha)) (oldTime beta alpha u (thetaOf beta θ) φ) (thetaOf beta θ) φ) := by
  have hp0 := theta_pos hb1 h0 h1
  have hp1 := theta_lt beta θ
  have c3 := hF.c3 (oldTime beta alpha u (thetaOf beta θ) φ) (thetaOf beta θ) φ hp0 hp1
  have c4 := hF.c4 (oldTime beta alpha u (thetaOf beta θ) φ) (thetaOf beta θ) φ hp0 hp1
  have hS := Smooth_bar hs
  have jb := smooth_jet (-2) hS (oldTime beta alpha u (thetaOf beta θ) φ) (thetaOf beta θ) φ hp0 hp1
  have jB := jet_A (-2) (smooth_B ha) (fun _ _ _ _ => rfl) (oldTime beta alpha u (thetaOf beta θ) φ) (thetaOf beta θ) φ hp0 hp1
  have jb1 := smooth_jet (-1) (smooth_eth (-2) hS) (oldTime beta alpha u (thetaOf beta θ) φ) (thetaOf beta θ) φ hp0 hp1
  have jB1 := jet_A (-1) (smooth_eth (-2) (smooth_B ha)) (fun _ _ _ _ => rfl) (oldTime beta alpha u (thetaOf beta θ) φ) (thetaOf beta θ) φ hp0 hp1
  have jt := smooth_jet (-2) (smooth_dt hS) (oldTime beta alpha u (thetaOf beta θ) φ) (thetaOf beta θ) φ hp0 hp1
  have je := jet_e hb hb1 ha (oldTime beta alpha u (thetaOf beta θ) φ) (thetaOf beta θ) φ hp0 hp1
  have jk := jet_kap hb hb1 (oldTime beta alpha u (thetaOf beta θ) φ) (thetaOf beta θ) φ hp0 hp1
  have k := (jet_w2 hb hb1 (oldTime beta alpha u (thetaOf beta θ) φ) (thetaOf beta θ) φ).mul
    ((((jk.mul (jb.add (jB.smul (-1)))).add jb1).add (jB1.smul (-1))).add ((je.mul jt).smul (-1)))
  have n := ((moved_jet hb hb1 ha _ h0 h1 k).spin (show (0 + (1 + -2) : Int) = -1 by norm_num)).congr (g := eth (-2) (bar (moved beta alpha F 5))) h0 h1 fun u θ φ h0 h1 => by
    rw [(bar_jet hb hb1 ha hs u θ φ h0 h1).2]
    ring
  unfold massAspect
  rw [n.eth, (bar_jet hb hb1 ha hs u θ φ h0 h1).1, moved_eq, moved_eq, dt_eth (-2) hS _ _ _ hp0 hp1]
  simp only [G2, G5, c3, c4]
  push_cast
  ring

/-! ## The new data are smooth -/

open scoped ContDiff

theorem smooth_w (hb : 0 ≤ beta) (hb1 : beta < 1) : Smooth fun _ θ _ => (w beta θ : ℂ) :=
  Smooth_real fun _ _ _ => (contDiff_const.mul (contDiff_const.sub (contDiff_const.mul Real.contDiff_cos))).contDiffAt

theorem smooth_kap (hb : 0 ≤ beta) (hb1 : beta < 1) : Smooth fun _ θ _ => (kap beta θ : ℂ) :=
  Smooth_real fun θ _ _ => ((contDiff_const.mul Real.contDiff_sin).contDiffAt).div (contDiff_const.mul (contDiff_const.sub (contDiff_const.mul Real.contDiff_cos))).contDiffAt
    (mul_ne_zero (by positivity) (den_pos hb hb1 θ).ne')

theorem smooth_ee (hb : 0 ≤ beta) (hb1 : beta < 1) (ha : Smooth (A alpha)) : Smooth (ee beta alpha) := by
  have hu : Smooth fun u _ _ => (u : ℂ) := fun u θ φ _ _ => (Complex.ofRealCLM.contDiff.comp contDiff_fst).contDiffAt
  refine smooth_congr (Smooth_add (Smooth_mul (smooth_kap hb hb1) (Smooth_add hu (Smooth_mul (Smooth_const (-1)) ha))) (Smooth_mul (Smooth_const (-1)) (smooth_eth 0 ha))) fun u θ φ _ _ => ?_
  unfold ee A
  push_cast
  ring

theorem smooth_G (hb : 0 ≤ beta) (hb1 : beta < 1) (ha : Smooth (A alpha)) (hs : ∀ c, Smooth (F c)) (c : Fin 6) : Smooth (G beta alpha F c) := by
  have hw := smooth_w hb hb1
  have hw3 := Smooth_mul (Smooth_mul hw hw) hw
  have he := smooth_ee hb hb1 ha
  have s1 := Smooth_mul he (hs 1)
  have s2 := Smooth_mul he (hs 2)
  have s3 := Smooth_mul he (hs 3)
  have s4 := Smooth_mul he (hs 4)
  have s22 := Smooth_mul he s2
  have s33 := Smooth_mul he s3
  have s44 := Smooth_mul he s4
  have s333 := Smooth_mul he s33
  have s444 := Smooth_mul he s44
  have s4444 := Smooth_mul he s444
  fin_cases c
  · refine smooth_congr (Smooth_mul hw3 (Smooth_add (Smooth_add (Smooth_add (Smooth_add (hs 0) (Smooth_mul (Smooth_const (-4)) s1)) (Smooth_mul (Smooth_const 6) s22)) (Smooth_mul (Smooth_const (-4)) s333)) s4444)) fun u θ φ _ _ => ?_
    exact (G0 u θ φ).trans (by ring)
  · refine smooth_congr (Smooth_mul hw3 (Smooth_add (Smooth_add (Smooth_add (hs 1) (Smooth_mul (Smooth_const (-3)) s2)) (Smooth_mul (Smooth_const 3) s33)) (Smooth_mul (Smooth_const (-1)) s444))) fun u θ φ _ _ => ?_
    exact (G1 u θ φ).trans (by ring)
  · refine smooth_congr (Smooth_mul hw3 (Smooth_add (Smooth_add (hs 2) (Smooth_mul (Smooth_const (-2)) s3)) s44)) fun u θ φ _ _ => ?_
    exact (G2 u θ φ).trans (by ring)
  · refine smooth_congr (Smooth_mul hw3 (Smooth_add (hs 3) (Smooth_mul (Smooth_const (-1)) s4))) fun u θ φ _ _ => ?_
    exact (G3 u θ φ).trans (by ring)
  · refine smooth_congr (Smooth_mul hw3 (hs 4)) fun u θ φ _ _ => ?_
    exact (G4 u θ φ).trans (by ring)
  · refine smooth_congr (Smooth_mul hw (Smooth_add (hs 5) (Smooth_mul (Smooth_const (-1)) (smooth_eth 1 (smooth_eth 0 ha))))) fun u θ φ _ _ => ?_
    exact (G5 u θ φ).trans (by ring)

theorem smooth_theta {θ : ℝ} (h0 : 0 < θ) (h1 : θ < Real.pi) : ContDiffAt ℝ ∞ (thetaOf beta) θ := by
  have hc : Real.cos (θ / 2) ≠ 0 := (Real.cos_pos_of_mem_Ioo ⟨by linarith [Real.pi_pos], by linarith⟩).ne'
  have h2 : ContDiffAt ℝ ∞ (fun x : ℝ => Real.tan (x / 2)) θ := ContDiffAt.comp (g := Real.tan) θ (Real.contDiffAt_tan.2 hc) (contDiff_id.div_const 2).contDiffAt
  exact contDiffAt_const.mul (ContDiffAt.comp (g := Real.arctan) θ Real.contDiff_arctan.contDiffAt (contDiffAt_const.mul h2))

theorem smooth_comp {g : Field} (hg : Smooth g) {U Th : E → ℝ} {u θ φ : ℝ} (h0 : 0 < Th (u, θ, φ)) (h1 : Th (u, θ, φ) < Real.pi) (hU : ContDiffAt ℝ ∞ U (u, θ, φ)) (hT : ContDiffAt ℝ ∞ Th (u, θ, φ)) :
    ContDiffAt ℝ ∞ (fun p : E => g (U p) (Th p) p.2.2) (u, θ, φ) := by
  have hP : ContDiffAt ℝ ∞ (fun p : E => ((U p, Th p, p.2.2) : E)) (u, θ, φ) := hU.prodMk (hT.prodMk (contDiff_snd.comp contDiff_snd).contDiffAt)
  exact ContDiffAt.comp (g := unc g) (u, θ, φ) (hg (U (u, θ, φ)) (Th (u, θ, φ)) φ h0 h1) hP

/-- C91: the new fields are smooth. -/
theorem moved_smooth (hb : 0 ≤ beta) (hb1 : beta < 1) (ha : Smooth (A alpha)) (hs : ∀ c, Smooth (F c)) (c : Fin 6) : Smooth (moved beta alpha F c) := by
  have e := moved_eq (beta := beta) (alpha := alpha) (F := F) c
  have hg := smooth_G hb hb1 ha hs c
  generalize G beta alpha F c = g at e hg
  rw [e]
  intro u θ φ h0 h1
  have hp0 := theta_pos hb1 h0 h1
  have hp1 := theta_lt beta θ
  have hT : ContDiffAt ℝ ∞ (fun p : E => thetaOf beta p.2.1) (u, θ, φ) := ContDiffAt.comp (g := thetaOf beta) (u, θ, φ) (smooth_theta h0 h1) (contDiff_fst.comp contDiff_snd).contDiffAt
  have hw : ContDiff ℝ ∞ (w beta) := contDiff_const.mul (contDiff_const.sub (contDiff_const.mul Real.contDiff_cos))
  have hα : ContDiffAt ℝ ∞ (fun p : E => alpha (thetaOf beta p.2.1) p.2.2) (u, θ, φ) := by
    have := smooth_comp ha (U := fun p => p.1) (Th := fun p => thetaOf beta p.2.1) (u := u) (θ := θ) (φ := φ) hp0 hp1 contDiff_fst.contDiffAt hT
    exact (Complex.reCLM.contDiff.contDiffAt).comp (u, θ, φ) this
  have hU : ContDiffAt ℝ ∞ (fun p : E => oldTime beta alpha p.1 (thetaOf beta p.2.1) p.2.2) (u, θ, φ) :=
    (contDiff_fst.contDiffAt.mul (ContDiffAt.comp (g := w beta) (u, θ, φ) hw.contDiffAt hT)).add hα
  exact smooth_comp hg (U := fun p => oldTime beta alpha p.1 (thetaOf beta p.2.1) p.2.2) (Th := fun p => thetaOf beta p.2.1) (u := u) (θ := θ) (φ := φ) hp0 hp1 hU hT

/-! ## The theorem -/

/-- A supertranslation given by its modes. -/
noncomputable def ofModes (L : Int) (a : Int → Int → ℂ) : ℝ → ℝ → ℝ := fun θ φ => (Verif.Spec.Sphere.field 0 0 L a θ φ).re

theorem ofModes_eq {a : Int → Int → ℂ} (hr : RealModes a) (L : Int) (u θ φ : ℝ) : A (ofModes L a) u θ φ = Verif.Spec.Sphere.field 0 0 L a θ φ := by
  unfold A ofModes
  exact Complex.ext rfl (field_real hr L θ φ).symm

theorem ofModes_smooth {a : Int → Int → ℂ} (hr : RealModes a) (L : Int) : Smooth (A (ofModes L a)) := smooth_congr (smooth_field 0 0 L a) fun u θ φ _ _ => ofModes_eq hr L u θ φ

/-- C91: if the data satisfy the equations of Bondi gauge at all times and in all directions, so do the data in the frame with a boost along the polar axis and a supertranslation, which is given by its modes. -/
theorem bondi_kept (hb : 0 ≤ beta) (hb1 : beta < 1) {L : Int} {a : Int → Int → ℂ} (hr : RealModes a) (hF : Bondi F) (hs : ∀ c, Smooth (F c)) :
    Bondi (moved beta (ofModes L a) F) ∧ ∀ c, Smooth (moved beta (ofModes L a) F c) := by
  have ha := ofModes_smooth hr L
  refine ⟨⟨new_b0 hb hb1 ha hF hs, new_b1 hb hb1 ha hF hs, new_b2 hb hb1 ha hF hs, fun u θ φ h0 h1 => (new_c hb hb1 ha hF (hs 5) u θ φ h0 h1).1, fun u θ φ h0 h1 => (new_c hb hb1 ha hF (hs 5) u θ φ h0 h1).2, ?_⟩,
    moved_smooth hb hb1 ha hs⟩
  intro u θ φ h0 h1
  have hp0 := theta_pos hb1 h0 h1
  have hp1 := theta_lt beta θ
  have hm := hF.mass (oldTime beta (ofModes L a) u (thetaOf beta θ) φ) (thetaOf beta θ) φ hp0 hp1
  have hq := quartic_real hr L (ofModes_eq hr L) (oldTime beta (ofModes L a) u (thetaOf beta θ) φ) (thetaOf beta θ) φ hp0 hp1
  have hB : B (ofModes L a) = bar (eth 1 (eth 0 (A (ofModes L a)))) := rfl
  rw [mass_aspect hb hb1 ha hF (hs 5) u θ φ h0 h1, ← Complex.ofReal_pow, Complex.im_ofReal_mul, Complex.sub_im, hm, hB, hq]
  ring

/-! ## The new data are what the transformation computes -/

theorem qmul (a b c d e f g h : ℝ) : (⟨a, b, c, d⟩ : Quaternion ℝ) * (⟨e, f, g, h⟩ : Quaternion ℝ) =
    (⟨a * e - b * f - c * g - d * h, a * f + b * e + c * h - d * g, a * g - b * h + c * e + d * f, a * h + b * g - c * f + d * e⟩ : Quaternion ℝ) := by
  refine Quaternion.ext _ _ ?_ ?_ ?_ ?_
  · exact Quaternion.re_mul _ _
  · exact Quaternion.imI_mul _ _
  · exact Quaternion.imJ_mul _ _
  · exact Quaternion.imK_mul _ _

/-- C91: the direction and the spin frame: in the direction `(θ', φ)` of the new frame the code evaluates the fields at the rotor of the direction `(θ, φ)`. -/
theorem frame (hb : 0 < beta) (θ φ : ℝ) (h0 : 0 < θ) (h1 : θ < Real.pi) :
    Bprm beta ![0, 0, 1] ![Real.sin θ * Real.cos φ, Real.sin θ * Real.sin φ, Real.cos θ] * Verif.GridMultiply.rotor θ φ = Verif.GridMultiply.rotor (thetaOf beta θ) φ := by
  have hs := Real.sin_pos_of_pos_of_lt_pi h0 h1
  have hcs := Real.sin_sq_add_cos_sq φ
  have hd : (∑ i, (![0, 0, 1] : Fin 3 → ℝ) i * (![Real.sin θ * Real.cos φ, Real.sin θ * Real.sin φ, Real.cos θ] : Fin 3 → ℝ) i) = Real.cos θ := by
    rw [Fin.sum_univ_three]
    simp
  have hc : cross ![Real.sin θ * Real.cos φ, Real.sin θ * Real.sin φ, Real.cos θ] ![0, 0, 1] = ![Real.sin θ * Real.sin φ, -(Real.sin θ * Real.cos φ), 0] := by
    unfold cross
    simp
  have hv : vabs ![Real.sin θ * Real.sin φ, -(Real.sin θ * Real.cos φ), 0] = Real.sin θ := by
    unfold vabs
    rw [show (![Real.sin θ * Real.sin φ, -(Real.sin θ * Real.cos φ), 0] : Fin 3 → ℝ) 0 ^ 2 + (![Real.sin θ * Real.sin φ, -(Real.sin θ * Real.cos φ), 0] : Fin 3 → ℝ) 1 ^ 2
      + (![Real.sin θ * Real.sin φ, -(Real.sin θ * Real.cos φ), 0] : Fin 3 → ℝ) 2 ^ 2 = Real.sin θ ^ 2 by
        simp
        linear_combination Real.sin θ ^ 2 * hcs]
    exact Real.sqrt_sq hs.le
  have hB : Bprm beta ![0, 0, 1] ![Real.sin θ * Real.cos φ, Real.sin θ * Real.sin φ, Real.cos θ] =
      ⟨Real.cos ((θ - thetaOf beta θ) / 2), Real.sin ((θ - thetaOf beta θ) / 2) * Real.sin φ, -(Real.sin ((θ - thetaOf beta θ) / 2) * Real.cos φ), 0⟩ := by
    unfold Bprm
    simp only [if_pos hb, hd, Real.arccos_cos h0.le h1.le, hc, hv, if_pos hs]
    unfold expRotor
    ext <;> simp <;> field_simp <;> simp
  rw [hB]
  have hφ1 : Real.sin φ = 2 * Real.sin (φ / 2) * Real.cos (φ / 2) := by rw [← Real.sin_two_mul]; ring_nf
  have hφ2 : Real.cos φ = Real.cos (φ / 2) ^ 2 - Real.sin (φ / 2) ^ 2 := by rw [← Real.cos_two_mul']; ring_nf
  have hφ3 := Real.sin_sq_add_cos_sq (φ / 2)
  have e : thetaOf beta θ / 2 = θ / 2 - (θ - thetaOf beta θ) / 2 := by ring
  unfold Verif.GridMultiply.rotor
  rw [e, Real.cos_sub, Real.sin_sub, hφ1, hφ2]
  generalize Real.cos ((θ - thetaOf beta θ) / 2) = x
  generalize Real.sin ((θ - thetaOf beta θ) / 2) = y
  generalize Real.cos (θ / 2) = p
  generalize Real.sin (θ / 2) = q
  generalize Real.sin (φ / 2) = a at hφ3
  generalize Real.cos (φ / 2) = b at hφ3
  simp only [qmul]
  refine Quaternion.ext _ _ ((Quaternion.re_mul _ _).trans ?_) ((Quaternion.imI_mul _ _).trans ?_) ((Quaternion.imJ_mul _ _).trans ?_) ((Quaternion.imK_mul _ _).trans ?_) <;> dsimp only
  · linear_combination (y * q * b) * hφ3
  · linear_combination (y * p * a) * hφ3
  · linear_combination (-(y * p * b)) * hφ3
  · linear_combination (y * q * a) * hφ3

theorem eth_modes {s s' : Int} (hs : s + 1 = s') {f : Field} {L : Int} {g : Int → Int → ℂ} (h : ∀ u θ φ, 0 < θ → θ < Real.pi → f u θ φ = Verif.Spec.Sphere.field s 0 L g θ φ) (u θ φ : ℝ) (h0 : 0 < θ)
    (h1 : θ < Real.pi) : eth s f u θ φ = Verif.Spec.Sphere.field s' 0 L (Charges.ethGHP s g) θ φ := by
  rw [eth_field hs (c := 1) (f := f) (L := L) (g := g) (fun u θ φ h0 h1 => by rw [h u θ φ h0 h1, one_mul]) u θ φ h0 h1, ← Props.SphereOps.field_const]
  congr 1
  funext ell m
  unfold Charges.ethGHP Verif.Spec.Boost.eth
  rw [← Props.AbdModes.sqrt_half]
  push_cast
  ring

/-- C91: the link with C61: where the fields `F` are those of the modes of the data, the new fields are the values that the transformation of modes (`Verif.Props.AbdModes.transform_general`) finds in the direction of
the rotor of `frame`, at each of its times. -/
theorem computed (hb : 0 ≤ beta) (hb1 : beta < 1) (a : AbdModes.Abd) {V Am : Int → Int → ℂ} (hV : ∀ θ φ, Verif.Spec.Sphere.field 0 0 1 V θ φ = ((beta * Real.cos θ : ℝ) : ℂ)) (hr : RealModes Am) (L : Int) (l : Nat)
    (t θ' θ φ : ℝ) (h0 : 0 < θ') (h1 : θ' < Real.pi) (hθ : θ = thetaOf beta θ') (hF : ∀ c, F c t θ φ = AbdModes.Spec.value a l (Verif.GridMultiply.rotor θ φ) c) (k : ℝ)
    (hk : k = AbdModes.Spec.doppler (gamma beta) ![0, 0, beta] (Verif.GridMultiply.rotor θ φ)) (c : Fin 6) :
    moved beta (ofModes L Am) F c (k * (t - ofModes L Am θ φ)) θ' φ =
      AbdModes.Spec.newValue a (gamma beta) k (AbdModes.Spec.alphaAt L Am (Verif.GridMultiply.rotor θ φ)) V Am L (Verif.GridMultiply.rotor θ φ) c l t := by
  have hp0 : 0 < θ := hθ ▸ theta_pos hb1 h0 h1
  have hp1 : θ < Real.pi := hθ ▸ theta_lt beta θ'
  have hw := (w_pos hb hb1 θ).ne'
  have hkw : k = 1 / w beta θ := by
    rw [hk]
    unfold AbdModes.Spec.doppler w
    rw [Fin.sum_univ_three, Verif.Props.FluxCovariance.dir_rotor 2]
    simp [Verif.Spec.Sphere.nHat]
  have hu : oldTime beta (ofModes L Am) (k * (t - ofModes L Am θ φ)) θ φ = t := by
    unfold oldTime
    rw [hkw]
    field_simp
    ring
  have hα : AbdModes.Spec.alphaAt L Am (Verif.GridMultiply.rotor θ φ) = ofModes L Am θ φ := rfl
  have e1 : ∀ u θ φ, 0 < θ → θ < Real.pi → eth 0 (A (ofModes L Am)) u θ φ = Verif.Spec.Sphere.field 1 0 L (Charges.ethGHP 0 Am) θ φ :=
    fun u θ φ h0 h1 => eth_modes (by norm_num) (fun u θ φ _ _ => ofModes_eq hr L u θ φ) u θ φ h0 h1
  have e2 : eth 1 (eth 0 (A (ofModes L Am))) t θ φ = Verif.Spec.Sphere.field 2 0 L (Charges.ethGHP 1 (Charges.ethGHP 0 Am)) θ φ := eth_modes (by norm_num) e1 t θ φ hp0 hp1
  have e3 : eth 0 (fun _ θ _ => ((beta * Real.cos θ : ℝ) : ℂ)) t θ φ = Verif.Spec.Sphere.field 1 0 1 (Charges.ethGHP 0 V) θ φ := eth_modes (by norm_num) (fun u θ φ _ _ => (hV θ φ).symm) t θ φ hp0 hp1
  have e4 : eth 0 (fun _ θ _ => ((beta * Real.cos θ : ℝ) : ℂ)) t θ φ = ((beta * Real.sin θ / √2 : ℝ) : ℂ) := by
    have h := ((Real.hasDerivAt_cos θ).const_mul beta).ofReal_comp
    unfold Spec.BondiFrame.eth ethOp
    rw [h.deriv, deriv_const]
    push_cast
    ring
  have he : GridModes.Spec.ethTime (gamma beta) k t (AbdModes.Spec.alphaAt L Am (Verif.GridMultiply.rotor θ φ)) V L Am (Verif.GridMultiply.rotor θ φ) = ee beta (ofModes L Am) t θ φ := by
    have x1 : Verif.GridMultiply.Spec.expansion 1 1 (Charges.ethGHP 0 V) (Verif.GridMultiply.rotor θ φ) = ((beta * Real.sin θ / √2 : ℝ) : ℂ) := e3.symm.trans e4
    have x2 : Verif.GridMultiply.Spec.expansion 1 L (Charges.ethGHP 0 Am) (Verif.GridMultiply.rotor θ φ) = eth 0 (fun _ θ φ => (ofModes L Am θ φ : ℂ)) t θ φ := (e1 t θ φ hp0 hp1).symm
    have x3 : (t - ofModes L Am θ φ) * gamma beta * k * (beta * Real.sin θ / √2) = kap beta θ * (t - ofModes L Am θ φ) := by
      have hg : gamma beta ≠ 0 := (one_div_pos.2 (root_pos hb hb1)).ne'
      have hd := (den_pos hb hb1 θ).ne'
      rw [hkw]
      unfold kap w
      field_simp
    unfold GridModes.Spec.ethTime ee
    rw [x1, x2, hα, ← Complex.ofReal_mul, x3, Complex.ofReal_mul]
  rw [moved_eq]
  show G beta (ofModes L Am) F c (oldTime beta (ofModes L Am) (k * (t - ofModes L Am θ φ)) (thetaOf beta θ') φ) (thetaOf beta θ') φ = _
  rw [← hθ, hu]
  have hk1 : 1 / k = w beta θ := by rw [hkw, one_div_one_div]
  unfold AbdModes.Spec.newValue
  rw [he, hk1]
  obtain ⟨p, hp⟩ : ∃ p : Nat → ℂ, p = fun n => AbdModes.Spec.value a l (Verif.GridMultiply.rotor θ φ) (Fin.ofNat 6 n) := ⟨_, rfl⟩
  have v0 : F 0 t θ φ = p 0 := by rw [hF, hp]; rfl
  have v1 : F 1 t θ φ = p 1 := by rw [hF, hp]; rfl
  have v2 : F 2 t θ φ = p 2 := by rw [hF, hp]; rfl
  have v3 : F 3 t θ φ = p 3 := by rw [hF, hp]; rfl
  have v4 : F 4 t θ φ = p 4 := by rw [hF, hp]; rfl
  rw [← hp]
  fin_cases c
  · have := G0 (beta := beta) (alpha := ofModes L Am) (F := F) t θ φ
    simp only [v0, v1, v2, v3, v4] at this
    rw [if_neg (by decide)]
    refine this.trans ?_
    simp [Verif.Spec.AbdTransform.mix, Finset.sum_range_succ, Nat.choose]
    exact Or.inl (by ring)
  · have := G1 (beta := beta) (alpha := ofModes L Am) (F := F) t θ φ
    simp only [v0, v1, v2, v3, v4] at this
    rw [if_neg (by decide)]
    refine this.trans ?_
    simp [Verif.Spec.AbdTransform.mix, Finset.sum_range_succ, Nat.choose]
    exact Or.inl (by ring)
  · have := G2 (beta := beta) (alpha := ofModes L Am) (F := F) t θ φ
    simp only [v0, v1, v2, v3, v4] at this
    rw [if_neg (by decide)]
    refine this.trans ?_
    simp [Verif.Spec.AbdTransform.mix, Finset.sum_range_succ, Nat.choose]
    exact Or.inl (by ring)
  · have := G3 (beta := beta) (alpha := ofModes L Am) (F := F) t θ φ
    simp only [v0, v1, v2, v3, v4] at this
    rw [if_neg (by decide)]
    refine this.trans ?_
    simp [Verif.Spec.AbdTransform.mix, Finset.sum_range_succ, Nat.choose]
    exact Or.inl (by ring)
  · have := G4 (beta := beta) (alpha := ofModes L Am) (F := F) t θ φ
    simp only [v0, v1, v2, v3, v4] at this
    rw [if_neg (by decide)]
    refine this.trans ?_
    simp [Verif.Spec.AbdTransform.mix]
  · have := G5 (beta := beta) (alpha := ofModes L Am) (F := F) t θ φ
    rw [hF, e2] at this
    rw [if_pos (by decide)]
    exact this

/-! ## An example: the field of a mass -/

/-- `ψ₂ = -M`, and all else is zero. -/
noncomputable def mass (M : ℝ) : Fin 6 → Field := fun c _ _ _ => if c = 2 then -(M : ℂ) else 0

theorem mass_bondi (M : ℝ) : Bondi (mass M) ∧ ∀ c, Smooth (mass M c) := by
  have h5 : mass M 5 = fun _ _ _ => 0 := rfl
  have h4 : mass M 4 = fun _ _ _ => 0 := rfl
  have h3 : mass M 3 = fun _ _ _ => 0 := rfl
  have h2 : mass M 2 = fun _ _ _ => -(M : ℂ) := rfl
  have h1 : mass M 1 = fun _ _ _ => 0 := rfl
  have h0 : mass M 0 = fun _ _ _ => 0 := rfl
  refine ⟨⟨?_, ?_, ?_, ?_, ?_, ?_⟩, fun c u θ φ _ _ => contDiffAt_const⟩ <;> intro u θ φ _ _ <;>
    simp [h0, h1, h2, h3, h4, h5, massAspect, dt, bar, Spec.BondiFrame.eth, ethOp]

/-- In the frame with a boost the mass has a moment, which grows with time: the hypotheses of `bondi_kept` hold, and the new data are not the old ones. -/
example (M u θ φ : ℝ) (hM : 0 < M) (hu : 0 < u) (h0 : 0 < θ) (h1 : θ < Real.pi) :
    Bondi (moved (1 / 2) (ofModes 0 0) (mass M)) ∧ moved (1 / 2) (ofModes 0 0) (mass M) 1 u θ φ ≠ 0 ∧ mass M 1 u θ φ = 0 := by
  have hb : (0 : ℝ) ≤ 1 / 2 := by norm_num
  have hb1 : (1 / 2 : ℝ) < 1 := by norm_num
  refine ⟨(bondi_kept hb hb1 (fun ell m => by simp) (mass_bondi M).1 (mass_bondi M).2).1, ?_, rfl⟩
  have hp0 := theta_pos hb1 h0 h1
  have hp1 := theta_lt (1 / 2) θ
  have hα : ofModes 0 0 = fun _ _ => 0 := by
    funext θ φ
    simp [ofModes, Verif.Spec.Sphere.field]
  have hs := Real.sin_pos_of_pos_of_lt_pi hp0 hp1
  have hw := w_pos hb hb1 (thetaOf (1 / 2) θ)
  have hd := den_pos hb hb1 (thetaOf (1 / 2) θ)
  have hk : 0 < kap (1 / 2) (thetaOf (1 / 2) θ) := by
    unfold kap
    positivity
  rw [moved_eq]
  show G (1 / 2) (ofModes 0 0) (mass M) 1 (oldTime (1 / 2) (ofModes 0 0) u (thetaOf (1 / 2) θ) φ) (thetaOf (1 / 2) θ) φ ≠ 0
  rw [G1, hα]
  have e : ee (1 / 2) (fun _ _ => 0) (oldTime (1 / 2) (fun _ _ => 0) u (thetaOf (1 / 2) θ) φ) (thetaOf (1 / 2) θ) φ = ((kap (1 / 2) (thetaOf (1 / 2) θ) * (u * w (1 / 2) (thetaOf (1 / 2) θ)) : ℝ) : ℂ) := by
    simp [ee, oldTime, Spec.BondiFrame.eth, ethOp]
  rw [e]
  generalize w (1 / 2) (thetaOf (1 / 2) θ) = x at *
  generalize kap (1 / 2) (thetaOf (1 / 2) θ) = y at *
  have : (0 : ℝ) < 3 * x ^ 3 * (y * (u * x)) * M := by positivity
  have := (Complex.ofReal_ne_zero.2 this.ne')
  refine fun h => this ?_
  rw [← h]
  simp [mass]
  ring

end Verif.Props.BondiFrame
