import Verif.Spec.ComFrame
import Verif.Props.BoostTensor

/-!
# C96: the center-of-mass frame
-/

namespace Verif.Props.ComFrame
open Verif.Spec.ComFrame Verif.Spec.BoostTensor Verif.Spec.FourMomentum Verif.Spec.BondiFrame Verif.Spec.Sphere Verif.AbdTransform Verif.Jets Verif.Props.BondiFrame Verif.Props.FourMomentum Verif.Props.BoostTensor
  ComplexConjugate MeasureTheory Verif.Triple Verif.Supertranslation Verif.Balance Verif.Spec.Boost

variable {beta : ℝ} {F : Fin 6 → Spec.BondiFrame.Field} {L : Int} {p1 p2 s : Int → Int → ℂ} {τ : ℝ} {a : Fin 3 → ℝ}

/-! ## Translations -/

/-- The modes of a translation. -/
noncomputable def modes (τ : ℝ) (a : Fin 3 → ℝ) : Int → Int → ℂ := fun ell m => if m.natAbs ≤ ell.natAbs then trans τ a ell m else 0

theorem modes_field (t b : Int) (τ : ℝ) (a : Fin 3 → ℝ) (θ φ : ℝ) : field t 0 b (modes τ a) θ φ = field t 0 b (trans τ a) θ φ := by
  unfold field
  refine Finset.sum_congr rfl fun ell h => Finset.sum_congr rfl fun m hm => ?_
  rw [Finset.mem_Icc] at h hm
  unfold modes
  rw [if_pos (by omega)]

theorem modes_real (τ : ℝ) (a : Fin 3 → ℝ) : RealModes (modes τ a) := by
  intro ell m
  unfold modes
  rw [Int.natAbs_neg]
  split_ifs with h
  · by_cases h0 : ell = 0
    · subst h0
      have : m = 0 := by omega
      subst this
      simp [Supertranslation.trans, constant, chi_ne]
    · by_cases h1 : ell = 1
      · subst h1
        obtain ⟨a1, a2, a3, a4, a5, a6, a7, a8, a9⟩ := Verif.Props.BoostFlux.chi_values
        have : m = -1 ∨ m = 0 ∨ m = 1 := by omega
        rcases this with rfl | rfl | rfl
        · simp [Supertranslation.trans, constant, a1, a3, a4, a6, a7, a9]
          ring
        · simp [Supertranslation.trans, constant, a2, a5, a8]
        · simp [Supertranslation.trans, constant, a1, a3, a4, a6, a7, a9]
          ring
      · simp [Supertranslation.trans, constant, h0, chi_ne _ _ _ h1]
  · simp

theorem shift_modes (hL : 1 ≤ L) : shift τ a = ofModes L (modes τ a) := by
  funext θ φ
  unfold ofModes shift
  rw [modes_field, trans_field hL]
  simp

theorem A_shift (hL : 1 ≤ L) (u θ φ : ℝ) : A (shift τ a) u θ φ = field 0 0 L (modes τ a) θ φ := by rw [shift_modes hL]; exact ofModes_eq (modes_real τ a) L u θ φ

theorem shift_smooth : Smooth (A (shift τ a)) := by rw [shift_modes le_rfl]; exact ofModes_smooth (modes_real τ a) 1

theorem shift_cont : Continuous fun p : ℝ × ℝ => A (shift τ a) 0 p.1 p.2 := by
  simp only [A_shift le_rfl]
  exact field_cont 0 _

theorem eth_shift (hL : 1 ≤ L) (u θ φ : ℝ) (h0 : 0 < θ) (h1 : θ < Real.pi) : Spec.BondiFrame.eth 0 (A (shift τ a)) u θ φ = ((1 / √2 : ℝ) : ℂ) * field 1 0 L (Spec.Boost.eth 0 (modes τ a)) θ φ := by
  rw [eth_field (s := 0) (s' := 1) (by norm_num) (f := A (shift τ a)) (c := 1) (fun u θ φ h0 h1 => by rw [one_mul]; exact A_shift hL u θ φ) u θ φ h0 h1]
  push_cast
  ring

theorem eth_eth_shift (u θ φ : ℝ) (h0 : 0 < θ) (h1 : θ < Real.pi) : Spec.BondiFrame.eth 1 (Spec.BondiFrame.eth 0 (A (shift τ a))) u θ φ = 0 := by
  have e1 := fun u θ φ h0 h1 => eth_modes (s := 0) (s' := 1) (by norm_num) (L := 1) (g := modes τ a) (f := A (shift τ a)) (fun u θ φ _ _ => A_shift le_rfl u θ φ) u θ φ h0 h1
  rw [eth_modes (s := 1) (s' := 2) (by norm_num) e1 u θ φ h0 h1]
  refine Finset.sum_eq_zero fun ell h => Finset.sum_eq_zero fun m _ => ?_
  rw [Finset.mem_Icc] at h
  have low : Charges.ethGHP 1 (Charges.ethGHP 0 (modes τ a)) ell m = 0 := by
    have : ell = 0 ∨ ell = 1 := by omega
    rcases this with rfl | rfl
    · simp [Charges.ethGHP]
    · simp [Charges.ethGHP]
  rw [low, zero_mul]

/-! ## A boost after a supertranslation -/

theorem theta_zero {θ : ℝ} (h0 : 0 < θ) (h1 : θ < Real.pi) : thetaOf 0 θ = θ := by
  unfold thetaOf
  rw [Real.artanh_zero, neg_zero, Real.exp_zero, one_mul, Real.arctan_tan (by linarith) (by linarith)]
  ring

theorem gamma_zero : gamma 0 = 1 := by simp [gamma]

theorem w_zero (θ : ℝ) : w 0 θ = 1 := by simp [w, gamma_zero]

theorem ee_split (alpha : ℝ → ℝ → ℝ) (U θ φ : ℝ) : ee beta alpha (U + alpha θ φ) θ φ = ee beta (fun _ _ => 0) U θ φ + ee 0 alpha (U + alpha θ φ) θ φ := by
  have z : Spec.BondiFrame.eth 0 (A fun _ _ => 0) U θ φ = 0 := by simp [A, Spec.BondiFrame.eth, Spec.SphereOps.ethOp]
  have e0 : ee beta (fun _ _ => 0) U θ φ = kap beta θ * U := by
    show (kap beta θ : ℂ) * ((U - 0 : ℝ) : ℂ) - Spec.BondiFrame.eth 0 (A fun _ _ => 0) U θ φ = _
    rw [z, sub_zero, sub_zero]
  rw [e0]
  unfold ee kap
  push_cast
  ring

theorem eth_eth_zero (u θ φ : ℝ) : Spec.BondiFrame.eth 1 (Spec.BondiFrame.eth 0 (A fun _ _ => 0)) u θ φ = 0 := by
  have z : Spec.BondiFrame.eth 0 (A fun _ _ => 0) = fun _ _ _ => 0 := by
    funext u θ φ
    simp [A, Spec.BondiFrame.eth, Spec.SphereOps.ethOp]
  rw [z]
  simp [Spec.BondiFrame.eth, Spec.SphereOps.ethOp]

theorem moved_zero (alpha : ℝ → ℝ → ℝ) (c : Fin 6) (u θ φ : ℝ) (h0 : 0 < θ) (h1 : θ < Real.pi) : moved 0 alpha F c u θ φ = G 0 alpha F c (u + alpha θ φ) θ φ := by
  rw [moved_eq]
  simp only [theta_zero h0 h1, oldTime, w_zero, mul_one]

/-- A boost and a supertranslation are the supertranslation followed by the boost. -/
theorem moved_compose (hb1 : beta < 1) (alpha : ℝ → ℝ → ℝ) (c : Fin 6) (u θ φ : ℝ) (h0 : 0 < θ) (h1 : θ < Real.pi) :
    moved beta alpha F c u θ φ = moved beta (fun _ _ => 0) (moved 0 alpha F) c u θ φ := by
  have hp0 := theta_pos hb1 h0 h1
  have hp1 := theta_lt beta θ
  rw [moved_eq, moved_eq]
  simp only
  obtain ⟨Θ, hΘ⟩ : ∃ Θ, Θ = thetaOf beta θ := ⟨_, rfl⟩
  rw [← hΘ] at hp0 hp1 ⊢
  obtain ⟨U, hU⟩ : ∃ U, U = u * w beta Θ := ⟨_, rfl⟩
  have o1 : oldTime beta alpha u Θ φ = U + alpha Θ φ := by unfold oldTime; rw [hU]
  have o2 : oldTime beta (fun _ _ => 0) u Θ φ = U := by unfold oldTime; rw [hU, add_zero]
  rw [o1, o2]
  have m := fun c => moved_zero (F := F) alpha c U Θ φ hp0 hp1
  have e := ee_split (beta := beta) alpha U Θ φ
  fin_cases c
  · show G beta alpha F 0 _ _ _ = G beta _ _ 0 _ _ _
    rw [G0, G0, m, m, m, m, m, G0, G1, G2, G3, G4, e, w_zero]
    push_cast
    ring
  · show G beta alpha F 1 _ _ _ = G beta _ _ 1 _ _ _
    rw [G1, G1, m, m, m, m, G1, G2, G3, G4, e, w_zero]
    push_cast
    ring
  · show G beta alpha F 2 _ _ _ = G beta _ _ 2 _ _ _
    rw [G2, G2, m, m, m, G2, G3, G4, e, w_zero]
    push_cast
    ring
  · show G beta alpha F 3 _ _ _ = G beta _ _ 3 _ _ _
    rw [G3, G3, m, m, G3, G4, e, w_zero]
    push_cast
    ring
  · show G beta alpha F 4 _ _ _ = G beta _ _ 4 _ _ _
    rw [G4, G4, m, G4, w_zero]
    push_cast
    ring
  · show G beta alpha F 5 _ _ _ = G beta _ _ 5 _ _ _
    rw [G5, G5, m, G5, w_zero, eth_eth_zero]
    push_cast
    simp [Spec.BondiFrame.eth, A]

/-! ## The data after a translation -/

theorem eth_congr (t : Int) {f g : Spec.BondiFrame.Field} (hf : Smooth f) (h : ∀ u θ φ, 0 < θ → θ < Real.pi → g u θ φ = f u θ φ) (u θ φ : ℝ) (h0 : 0 < θ) (h1 : θ < Real.pi) :
    Spec.BondiFrame.eth t g u θ φ = Spec.BondiFrame.eth t f u θ φ := ((smooth_jet t hf u θ φ h0 h1).congr (g := g) h0 h1 h).eth

theorem ee_shift (u θ φ : ℝ) : ee 0 (shift τ a) u θ φ = -Spec.BondiFrame.eth 0 (A (shift τ a)) 0 θ φ := by
  unfold ee kap
  rw [zero_mul, zero_div, Complex.ofReal_zero, zero_mul, zero_sub]
  rfl

theorem shifted5 (hS : Still F) (u θ φ : ℝ) (h0 : 0 < θ) (h1 : θ < Real.pi) : moved 0 (shift τ a) F 5 u θ φ = F 5 u θ φ := by
  rw [moved_zero _ _ _ _ _ h0 h1, G5, w_zero, eth_eth_shift _ _ _ h0 h1, hS.c5 _ u θ φ h0 h1]
  simp

theorem shifted2 (hS : Still F) (u θ φ : ℝ) (h0 : 0 < θ) (h1 : θ < Real.pi) : moved 0 (shift τ a) F 2 u θ φ = F 2 u θ φ := by
  rw [moved_zero _ _ _ _ _ h0 h1, G2, w_zero, hS.z3 _ _ _ h0 h1, hS.z4 _ _ _ h0 h1, hS.c2 _ u θ φ h0 h1]
  simp

theorem shifted1 (hS : Still F) (θ φ : ℝ) (h0 : 0 < θ) (h1 : θ < Real.pi) :
    moved 0 (shift τ a) F 1 0 θ φ = F 1 0 θ φ + (A (shift τ a) 0 θ φ * Spec.BondiFrame.eth 0 (F 2) 0 θ φ + 3 * Spec.BondiFrame.eth 0 (A (shift τ a)) 0 θ φ * F 2 0 θ φ) := by
  rw [moved_zero _ _ _ _ _ h0 h1, G1, w_zero, hS.z3 _ _ _ h0 h1, hS.z4 _ _ _ h0 h1, hS.c2 _ 0 θ φ h0 h1, hS.c1 _ _ _ h0 h1, ee_shift]
  unfold A
  push_cast
  ring

theorem aspect_shift (hS : Still F) (hs : ∀ c, Smooth (F c)) (θ φ : ℝ) (h0 : 0 < θ) (h1 : θ < Real.pi) :
    aspect (moved 0 (shift τ a) F) 0 θ φ = aspect F 0 θ φ + (A (shift τ a) 0 θ φ * Spec.BondiFrame.eth 0 (F 2) 0 θ φ + 3 * Spec.BondiFrame.eth 0 (A (shift τ a)) 0 θ φ * F 2 0 θ φ) := by
  have hb : ∀ u θ φ, 0 < θ → θ < Real.pi → Spec.BondiFrame.bar (moved 0 (shift τ a) F 5) u θ φ = Spec.BondiFrame.bar (F 5) u θ φ := fun u θ φ h0 h1 => by
    unfold Spec.BondiFrame.bar
    rw [shifted5 hS u θ φ h0 h1]
  unfold aspect
  rw [shifted1 hS θ φ h0 h1, shifted5 hS 0 θ φ h0 h1, eth_congr (-2) (Smooth_bar (hs 5)) hb 0 θ φ h0 h1,
    eth_congr 0 (f := fun u θ φ => F 5 u θ φ * Spec.BondiFrame.bar (F 5) u θ φ) (g := fun u θ φ => moved 0 (shift τ a) F 5 u θ φ * Spec.BondiFrame.bar (moved 0 (shift τ a) F 5) u θ φ)
      (Smooth_mul (hs 5) (Smooth_bar (hs 5))) (fun u θ φ h0 h1 => by rw [shifted5 hS u θ φ h0 h1, hb u θ φ h0 h1]) 0 θ φ h0 h1]
  simp only [Complex.ofReal_zero, zero_mul, sub_zero]
  ring

theorem eth_psi2 (h : Static L p1 p2 s F) (θ φ : ℝ) (h0 : 0 < θ) (h1 : θ < Real.pi) : Spec.BondiFrame.eth 0 (F 2) 0 θ φ = ((1 / √2 : ℝ) : ℂ) * field 1 0 L (Spec.Boost.eth 0 p2) θ φ := by
  rw [eth_field (s := 0) (s' := 1) (by norm_num) (f := F 2) (c := 1) (fun u θ φ h0 h1 => by rw [one_mul, ← h.psi2 θ φ h0 h1]; exact h.still.c2 u 0 θ φ h0 h1) 0 θ φ h0 h1]
  push_cast
  ring

/-- The change of the aspect. -/
noncomputable def change (L : Int) (p2 : Int → Int → ℂ) (τ : ℝ) (a : Fin 3 → ℝ) (θ φ : ℝ) : ℂ :=
  dprod L 0 0 (modes τ a) p2 θ φ + 2 * ((((1 / √2 : ℝ) : ℂ) * field 1 0 L (Spec.Boost.eth 0 (modes τ a)) θ φ) * field 0 0 L p2 θ φ)

theorem change_cont : Continuous fun p : ℝ × ℝ => change L p2 τ a p.1 p.2 := by
  have c : ∀ t f, Continuous fun p : ℝ × ℝ => field t 0 L f p.1 p.2 := fun t f => field_cont t f
  exact (dprod_cont L 0 0 _ _).add (continuous_const.mul ((continuous_const.mul (c _ _)).mul (c _ _)))

theorem aspect_change (hL : 1 ≤ L) (h : Static L p1 p2 s F) (θ φ : ℝ) (h0 : 0 < θ) (h1 : θ < Real.pi) : aspect (moved 0 (shift τ a) F) 0 θ φ = aspect F 0 θ φ + change L p2 τ a θ φ := by
  rw [aspect_shift h.still h.smooth θ φ h0 h1, A_shift hL, eth_shift hL _ _ _ h0 h1, eth_psi2 h θ φ h0 h1, h.psi2 θ φ h0 h1]
  unfold change dprod
  rw [zero_add]
  ring

theorem eth_trans_field (t b : Int) (θ φ : ℝ) : field t 0 b (Spec.Boost.eth 0 (modes τ a)) θ φ = field t 0 b (Spec.Boost.eth 0 (Supertranslation.trans τ a)) θ φ := by
  unfold field
  refine Finset.sum_congr rfl fun ell h => Finset.sum_congr rfl fun m hm => ?_
  rw [Finset.mem_Icc] at h hm
  unfold Spec.Boost.eth modes
  rw [if_pos (by omega)]

/-- The integral of the change. -/
theorem change_integral (hL : 1 ≤ L) (i : Fin 3) : (solid fun θ φ => change L p2 τ a θ φ * dn i θ φ) =
    a i * (((√(4 * Real.pi) : ℝ) : ℂ) * p2 0 0) + τ * pair i p2 + Complex.I * (![a 1 * pair 2 p2 - a 2 * pair 1 p2, a 2 * pair 0 p2 - a 0 * pair 2 p2, a 0 * pair 1 p2 - a 1 * pair 0 p2] i : ℂ) := by
  rw [← trans_integral hL i τ a p2]
  have c : ∀ t f, Continuous fun p : ℝ × ℝ => field t 0 L f p.1 p.2 := fun t f => field_cont t f
  have l := solid_lin (f := fun θ φ => dprod L 0 0 (modes τ a) p2 θ φ * dn i θ φ) (g := fun θ φ => (((1 / √2 : ℝ) : ℂ) * field 1 0 L (Spec.Boost.eth 0 (modes τ a)) θ φ) * field 0 0 L p2 θ φ * dn i θ φ)
    ((dprod_cont L 0 0 _ _).mul (dn_cont i)) (((continuous_const.mul (c _ _)).mul (c _ _)).mul (dn_cont i)) 1 2
  rw [solid_congr (G := fun θ φ => 1 * (dprod L 0 0 (modes τ a) p2 θ φ * dn i θ φ) + 2 * ((((1 / √2 : ℝ) : ℂ) * field 1 0 L (Spec.Boost.eth 0 (modes τ a)) θ φ) * field 0 0 L p2 θ φ * dn i θ φ)) fun θ φ _ _ => by
    unfold change
    ring, l, parts 0 0 (by norm_num), ← Verif.Balance.solid_const]
  have e1 : T L 0 (chi i) 0 (modes τ a) 0 p2 = T L 0 (chi i) 0 p2 0 (Supertranslation.trans τ a) := by
    rw [T_swap]
    unfold T
    congr 1
    funext θ φ
    rw [modes_field]
  have e2 : (solid fun θ φ => 2 * ((((1 / √2 : ℝ) : ℂ) * field 1 0 L (Spec.Boost.eth 0 (modes τ a)) θ φ) * field 0 0 L p2 θ φ * dn i θ φ)) = T L (-1) (ethbar 0 (chi i)) 0 p2 1 (Spec.Boost.eth 0 (Supertranslation.trans τ a)) := by
    unfold T
    refine solid_congr fun θ φ h0 h1 => ?_
    rw [dn_modes i θ φ h0 h1, eth_trans_field]
    linear_combination (2 * field 1 0 L (Spec.Boost.eth 0 (Supertranslation.trans τ a)) θ φ * field 0 0 L p2 θ φ * field (-1) 1 1 (ethbar 0 (chi i)) θ φ) * Verif.Props.Cwwy.half
  rw [e1, e2]
  ring

/-! ## The charges after a translation -/

theorem Steady.const (hL : 1 ≤ L) (h : Steady L s F) (u u' : ℝ) : dipole (aspect F u) = dipole (aspect F u') := by
  have e := (h.turn hL le_rfl one_pos u 0).symm.trans (h.turn hL le_rfl one_pos u' 0)
  have z : ∀ D, turn 0 D = D := fun D => by
    funext i
    fin_cases i <;> simp [turn, gamma_zero]
  rwa [z, z] at e

theorem Static.shifted (hL : 1 ≤ L) (h : Static L p1 p2 s F) : Steady L s (moved 0 (shift τ a) F) := by
  obtain ⟨H, hH, hQ⟩ := h.cont
  have k := bondi_kept (L := L) le_rfl one_pos (modes_real τ a) h.bondi h.smooth
  rw [← shift_modes hL] at k
  refine ⟨k.1, k.2, fun u θ φ h0 h1 => by rw [shifted5 h.still u θ φ h0 h1, h.sigma u θ φ h0 h1], fun θ φ => H θ φ + change L p2 τ a θ φ, hH.add change_cont, fun θ φ h0 h1 => ?_⟩
  rw [aspect_change hL h θ φ h0 h1, hQ θ φ h0 h1]

theorem low (hL : 1 ≤ L) (h : Static L p1 p2 s F) : (p2 0 0).im = 0 ∧ ∀ i, (pair i p2).im = 0 := by
  obtain ⟨q, hq, hf⟩ := h.steady.im
  obtain ⟨d, hd⟩ : ∃ d : Int → Int → ℂ, d = fun ell m => p2 ell m + -1 * Charges.bar 0 p2 ell m := ⟨_, rfl⟩
  have e : ∀ θ φ, 0 < θ → θ < Real.pi → field 0 0 L d θ φ = 2 * Complex.I * field 0 0 L q θ φ := fun θ φ h0 h1 => by
    have hc := Verif.Jets.field_conj 0 L p2 θ φ
    rw [neg_zero] at hc
    have hz := Complex.sub_conj (field 0 0 L p2 θ φ)
    rw [hd, Verif.Props.AngMomIntegral.field_sum, Verif.Props.SphereOps.field_const, ← hc, ← hf 0 θ φ h0 h1]
    unfold imF
    rw [h.psi2 θ φ h0 h1]
    push_cast at hz
    linear_combination hz
  have pq : ∀ i, pair i q = 0 := fun i => by
    unfold pair
    rw [hq 1 (-1) (by norm_num) le_rfl, hq 1 0 (by norm_num) le_rfl, hq 1 1 (by norm_num) le_rfl]
    simp
  constructor
  · have h0 : ((√(4 * Real.pi) : ℝ) : ℂ) * d 0 0 = 0 := by
      rw [← solid_field (b := L) (by omega), solid_congr (F := field 0 0 L d) (G := fun θ φ => 2 * Complex.I * field 0 0 L q θ φ) fun θ φ h0 h1 => e θ φ h0 h1, Verif.Balance.solid_const,
        solid_field (by omega), hq 0 0 le_rfl (by norm_num), mul_zero, mul_zero]
    have hpi : ((√(4 * Real.pi) : ℝ) : ℂ) ≠ 0 := by exact_mod_cast (by have := Real.pi_pos; positivity : √(4 * Real.pi) ≠ 0)
    have h1 := (mul_eq_zero.1 h0).resolve_left hpi
    rw [hd] at h1
    simp only [Charges.bar] at h1
    have := congrArg Complex.im h1
    simp at this
    linarith
  · intro i
    have h0 : pair i d = 0 := by
      rw [pair_field hL, solid_congr (G := fun θ φ => 2 * Complex.I * (field 0 1 1 (chi i) θ φ * field 0 0 L q θ φ)) fun θ φ h0 h1 => by rw [e θ φ h0 h1]; ring, Verif.Balance.solid_const, ← pair_field hL, pq, mul_zero]
    rw [hd, Verif.Props.Cwwy.pair_add, pair_smul, pair_bar] at h0
    have := congrArg Complex.im h0
    simp at this
    linarith

theorem four_static (hL : 1 ≤ L) (h : Static L p1 p2 s F) (u : ℝ) :
    total F u = momentum (field 0 0 L p2) ∧ (total F u 0 : ℂ) = (-(1 / (4 * Real.pi)) : ℝ) * (((√(4 * Real.pi) : ℝ) : ℂ) * p2 0 0) ∧ ∀ i : Fin 3, (total F u i.succ : ℂ) = (-(1 / (4 * Real.pi)) : ℝ) * pair i p2 := by
  have hn : ∀ u θ φ, 0 < θ → θ < Real.pi → dt (Spec.BondiFrame.bar (F 5)) u θ φ = 0 := dt_of_const fun x y θ φ h0 h1 => by unfold Spec.BondiFrame.bar; rw [h.still.c5 x y θ φ h0 h1]
  have e : total F u = momentum (field 0 0 L p2) := by
    funext b
    unfold total momentum
    rw [solid_congr (G := fun θ φ => field 0 0 L p2 θ φ * (Spec.Charges.n θ φ b : ℝ)) fun θ φ h0 h1 => by beta_reduce; rw [hn u θ φ h0 h1, mul_zero, add_zero, h.still.c2 u 0 θ φ h0 h1, h.psi2 θ φ h0 h1]]
  obtain ⟨l0, l1⟩ := low hL h
  have real : ∀ z : ℂ, z.im = 0 → ((((-(1 / (4 * Real.pi) : ℝ) : ℂ) * z).re : ℝ) : ℂ) = (-(1 / (4 * Real.pi)) : ℝ) * z := fun z hz => by
    rw [← Complex.ofReal_neg, Complex.re_ofReal_mul]
    push_cast
    congr 1
    exact Complex.ext rfl hz.symm
  refine ⟨e, ?_, fun i => ?_⟩
  · rw [e]
    unfold momentum
    have : (solid fun θ φ => field 0 0 L p2 θ φ * (Spec.Charges.n θ φ 0 : ℝ)) = ((√(4 * Real.pi) : ℝ) : ℂ) * p2 0 0 := by
      rw [← solid_field (b := L) (by omega)]
      congr 1
      funext θ φ
      simp [Spec.Charges.n]
    rw [this]
    exact real _ (by rw [Complex.im_ofReal_mul, l0, mul_zero])
  · rw [e]
    unfold momentum
    have : (solid fun θ φ => field 0 0 L p2 θ φ * (Spec.Charges.n θ φ i.succ : ℝ)) = pair i p2 := by
      rw [pair_field hL]
      congr 1
      funext θ φ
      rw [Verif.Props.BoostFlux.chi_field, mul_comm]
      fin_cases i <;> rfl
    rw [this]
    exact real _ (l1 i)

/-- The vector product. -/
def cross3 (a b : Fin 3 → ℝ) : Fin 3 → ℝ := ![a 1 * b 2 - a 2 * b 1, a 2 * b 0 - a 0 * b 2, a 0 * b 1 - a 1 * b 0]

theorem dipole_shift (hL : 1 ≤ L) (h : Static L p1 p2 s F) (u u' : ℝ) (i : Fin 3) : dipole (aspect (moved 0 (shift τ a) F) u') i =
    dipole (aspect F u) i + ((a i * total F u 0 + τ * total F u i.succ : ℝ) : ℂ) + Complex.I * (cross3 a (fun j => total F u j.succ) i : ℝ) := by
  obtain ⟨H, hH, hQ⟩ := h.cont
  obtain ⟨-, e0, e1⟩ := four_static hL h u
  rw [Steady.const hL (Static.shifted hL h) u' 0, Steady.const hL h.steady u 0, dipole_dn (H := fun θ φ => H θ φ + change L p2 τ a θ φ) (fun θ φ h0 h1 => by rw [aspect_change hL h θ φ h0 h1, hQ θ φ h0 h1]) i, dipole_dn hQ i]
  have l := solid_lin (f := fun θ φ => H θ φ * dn i θ φ) (g := fun θ φ => change L p2 τ a θ φ * dn i θ φ) (hH.mul (dn_cont i)) (change_cont.mul (dn_cont i)) 1 1
  rw [solid_congr (G := fun θ φ => 1 * (H θ φ * dn i θ φ) + 1 * (change L p2 τ a θ φ * dn i θ φ)) fun θ φ _ _ => by ring, l, change_integral hL]
  have c : ((cross3 a (fun j => total F u j.succ) i : ℝ) : ℂ) = (-(1 / (4 * Real.pi)) : ℝ) * (![a 1 * pair 2 p2 - a 2 * pair 1 p2, a 2 * pair 0 p2 - a 0 * pair 2 p2, a 0 * pair 1 p2 - a 1 * pair 0 p2] i : ℂ) := by
    have k0 := e1 0
    have k1 := e1 1
    have k2 := e1 2
    fin_cases i
    · show ((a 1 * total F u (Fin.succ 2) - a 2 * total F u (Fin.succ 1) : ℝ) : ℂ) = _ * (a 1 * pair 2 p2 - a 2 * pair 1 p2)
      rw [Complex.ofReal_sub, Complex.ofReal_mul, Complex.ofReal_mul]
      linear_combination (a 1 : ℂ) * k2 - a 2 * k1
    · show ((a 2 * total F u (Fin.succ 0) - a 0 * total F u (Fin.succ 2) : ℝ) : ℂ) = _ * (a 2 * pair 0 p2 - a 0 * pair 2 p2)
      rw [Complex.ofReal_sub, Complex.ofReal_mul, Complex.ofReal_mul]
      linear_combination (a 2 : ℂ) * k0 - a 0 * k2
    · show ((a 0 * total F u (Fin.succ 1) - a 1 * total F u (Fin.succ 0) : ℝ) : ℂ) = _ * (a 0 * pair 1 p2 - a 1 * pair 0 p2)
      rw [Complex.ofReal_sub, Complex.ofReal_mul, Complex.ofReal_mul]
      linear_combination (a 0 : ℂ) * k1 - a 1 * k0
  rw [c]
  push_cast
  rw [e0, e1 i]
  push_cast
  ring

/-- C96: for data without news, a translation adds the tensor of the translation and the momentum to the boost charge and the angular momentum, and does not change the momentum. -/
theorem translation (hL : 1 ≤ L) (h : Static L p1 p2 s F) (u u' : ℝ) :
    (∀ i, boost (moved 0 (shift τ a) F) u' i = boost F u i + (a i * total F u 0 + τ * total F u i.succ)) ∧
    ∀ i, angular (moved 0 (shift τ a) F) u' i = angular F u i + cross3 a (fun j => total F u j.succ) i := by
  constructor
  · intro i
    unfold boost
    rw [dipole_shift hL h u u' i, Complex.add_re, Complex.add_re, Complex.ofReal_re]
    simp
  · intro i
    unfold angular
    rw [dipole_shift hL h u u' i, Complex.add_im, Complex.add_im, Complex.ofReal_im]
    simp

/-! ## Translations and boosts -/

theorem dipole_congr {f g : Fin 6 → Spec.BondiFrame.Field} (hs : ∀ c, Smooth (f c)) (h : ∀ c u θ φ, 0 < θ → θ < Real.pi → g c u θ φ = f c u θ φ) (u : ℝ) : dipole (aspect g u) = dipole (aspect f u) := by
  have hb : ∀ u θ φ, 0 < θ → θ < Real.pi → Spec.BondiFrame.bar (g 5) u θ φ = Spec.BondiFrame.bar (f 5) u θ φ := fun u θ φ h0 h1 => by
    unfold Spec.BondiFrame.bar
    rw [h 5 u θ φ h0 h1]
  have hd : ∀ u θ φ, 0 < θ → θ < Real.pi → dt (Spec.BondiFrame.bar (g 5)) u θ φ = dt (Spec.BondiFrame.bar (f 5)) u θ φ := fun u θ φ h0 h1 => by
    unfold dt
    congr 1
    funext x
    exact hb x θ φ h0 h1
  have e : ∀ θ φ, 0 < θ → θ < Real.pi → aspect g u θ φ = aspect f u θ φ := fun θ φ h0 h1 => by
    unfold aspect
    rw [h 1 u θ φ h0 h1, h 5 u θ φ h0 h1, eth_congr (-2) (Smooth_bar (hs 5)) hb u θ φ h0 h1,
      eth_congr 0 (f := fun u θ φ => f 5 u θ φ * Spec.BondiFrame.bar (f 5) u θ φ) (g := fun u θ φ => g 5 u θ φ * Spec.BondiFrame.bar (g 5) u θ φ)
        (Smooth_mul (hs 5) (Smooth_bar (hs 5))) (fun u θ φ h0 h1 => by rw [h 5 u θ φ h0 h1, hb u θ φ h0 h1]) u θ φ h0 h1,
      eth_congr 0 (f := fun u θ φ => ((f 2 u θ φ + f 5 u θ φ * dt (Spec.BondiFrame.bar (f 5)) u θ φ).re : ℂ)) (g := fun u θ φ => ((g 2 u θ φ + g 5 u θ φ * dt (Spec.BondiFrame.bar (g 5)) u θ φ).re : ℂ))
        (smooth_reF (f := fun u θ φ => f 2 u θ φ + f 5 u θ φ * dt (Spec.BondiFrame.bar (f 5)) u θ φ) (Smooth_add (hs 2) (Smooth_mul (hs 5) (smooth_dt (Smooth_bar (hs 5))))))
        (fun u θ φ h0 h1 => by rw [h 2 u θ φ h0 h1, h 5 u θ φ h0 h1, hd u θ φ h0 h1]) u θ φ h0 h1]
  funext i
  unfold dipole
  congr 1
  exact solid_congr fun θ φ h0 h1 => by rw [e θ φ h0 h1]

/-- C96: in the frame with a translation and a boost the boost charge and the angular momentum are the components of the tensor `M + X ∧ P`, `X` the translation, and the momentum those of the same vector, at all times of both frames. -/
theorem poincare (hL : 1 ≤ L) (hb : 0 ≤ beta) (hb1 : beta < 1) (h : Static L p1 p2 s F) (u u' : ℝ) :
    tensor (boost (moved beta (shift τ a) F) u') (angular (moved beta (shift τ a) F) u') =
      seen2 beta (fun m n => tensor (boost F u) (angular F u) m n + orbital ![-τ, a 0, a 1, a 2] (total F u) m n) ∧
    total (moved beta (shift τ a) F) u' = seen beta (total F u) := by
  have st := Static.shifted (τ := τ) (a := a) hL h
  have hz : Smooth (A fun _ _ => 0) := by
    unfold A
    simp only [Complex.ofReal_zero]
    exact Smooth_const 0
  constructor
  · have e := dipole_congr (moved_smooth hb hb1 hz st.smooth) (fun c u θ φ h0 h1 => moved_compose (F := F) (beta := beta) hb1 (shift τ a) c u θ φ h0 h1) u'
    have t := turn_tensor hb hb1 _ _ (st.turn hL hb hb1 0 u')
    have e1 : boost (moved beta (shift τ a) F) u' = boost (moved beta (fun _ _ => 0) (moved 0 (shift τ a) F)) u' := by
      funext i
      unfold boost
      rw [e]
    have e2 : angular (moved beta (shift τ a) F) u' = angular (moved beta (fun _ _ => 0) (moved 0 (shift τ a) F)) u' := by
      funext i
      unfold angular
      rw [e]
    rw [e1, e2]
    refine t.trans ?_
    congr 1
    obtain ⟨k1, k2⟩ := translation (τ := τ) (a := a) hL h u 0
    have q1 : (fun i => (dipole (aspect (moved 0 (shift τ a) F) 0) i).re) = fun i => boost F u i + (a i * total F u 0 + τ * total F u i.succ) := funext k1
    have q2 : (fun i => (dipole (aspect (moved 0 (shift τ a) F) 0) i).im) = fun i => angular F u i + cross3 a (fun j => total F u j.succ) i := funext k2
    rw [q1, q2]
    funext m n
    fin_cases m <;> fin_cases n <;> simp [tensor, orbital, cross3] <;> first | done | ring1
  · rw [(four_static hL h u).1]
    unfold total
    have hn : ∀ u θ φ, 0 < θ → θ < Real.pi → dt (Spec.BondiFrame.bar (F 5)) u θ φ = 0 := dt_of_const fun x y θ φ h0 h1 => by unfold Spec.BondiFrame.bar; rw [h.still.c5 x y θ φ h0 h1]
    refine momentum_boost hb hb1 (field_cont 0 p2) fun θ φ h0 h1 => ?_
    have hp0 := theta_pos hb1 h0 h1
    have hp1 := theta_lt beta θ
    rw [(bar_jet hb hb1 shift_smooth (h.smooth 5) u' θ φ h0 h1).1, hn _ _ _ hp0 hp1, mul_zero, mul_zero, add_zero, moved_eq]
    simp only [G2, h.still.z3 _ _ _ hp0 hp1, h.still.z4 _ _ _ hp0 hp1, h.still.c2 _ 0 _ _ hp0 hp1, h.psi2 _ _ hp0 hp1]
    ring

/-! ## The center of mass -/

theorem boost_moved (hL : 1 ≤ L) (hb : 0 ≤ beta) (hb1 : beta < 1) (h : Static L p1 p2 s F) (u u' : ℝ) (h1 : total F u 1 = 0) (h2 : total F u 2 = 0) (h3 : total F u 3 = beta * total F u 0) :
    boost (moved beta (shift 0 a) F) u' 0 = gamma beta * (boost F u 0 + a 0 * total F u 0 * (1 - beta ^ 2) + beta * angular F u 1) ∧
    boost (moved beta (shift 0 a) F) u' 1 = gamma beta * (boost F u 1 + a 1 * total F u 0 * (1 - beta ^ 2) - beta * angular F u 0) ∧
    boost (moved beta (shift 0 a) F) u' 2 = boost F u 2 + a 2 * total F u 0 ∧ total (moved beta (shift 0 a) F) u' = ![total F u 0 / gamma beta, 0, 0, 0] := by
  obtain ⟨t1, t2⟩ := poincare (τ := 0) (a := a) hL hb hb1 h u u'
  have hq := gamma_sq hb hb1
  have hg : gamma beta ≠ 0 := fun e => by rw [e] at hq; norm_num at hq
  have k1 := congrFun (congrFun t1 1) 0
  have k2 := congrFun (congrFun t1 2) 0
  have k3 := congrFun (congrFun t1 3) 0
  simp [tensor, seen2, seen, orbital, h1, h2, h3] at k1 k2 k3
  refine ⟨?_, ?_, ?_, ?_⟩
  · rw [k1]
    ring
  · rw [k2]
    ring
  · rw [k3]
    linear_combination (boost F u 2 + a 2 * total F u 0) * hq
  · rw [t2]
    funext b
    fin_cases b
    · show gamma beta * (total F u 0 - beta * total F u 3) = total F u 0 / gamma beta
      rw [h3]
      field_simp
      linear_combination (total F u 0) * hq
    · exact h1
    · exact h2
    · show gamma beta * (total F u 3 - beta * total F u 0) = 0
      rw [h3]
      ring

/-- The place of the center of mass after the first pass. -/
noncomputable def offset (beta : ℝ) (N J : Fin 3 → ℝ) (E : ℝ) : Fin 3 → ℝ := ![gamma beta ^ 2 * beta * (J 1 + beta * N 0) / E, gamma beta ^ 2 * beta * (beta * N 1 - J 0) / E, 0]

variable (hL : 1 ≤ L) (hb : 0 ≤ beta) (hb1 : beta < 1) (h : Static L p1 p2 s F) (u : ℝ) (h0 : total F u 0 ≠ 0) (h1 : total F u 1 = 0) (h2 : total F u 2 = 0) (h3 : total F u 3 = beta * total F u 0)
include hL hb hb1 h h0 h1 h2 h3

/-- C96: the center of mass of data without news moves uniformly, and one translation and one boost take it to rest, at a place that is the origin only if the component of the spin perpendicular to the velocity is zero. -/
theorem one_pass (u' : ℝ) : place F u' = (fun i => boost F u i / total F u 0 + ![0, 0, beta] i * u') ∧
    place (moved beta (shift 0 fun i => -(boost F u i / total F u 0)) F) u' = offset beta (boost F u) (angular F u) (total F u 0) ∧
    total (moved beta (shift 0 fun i => -(boost F u i / total F u 0)) F) u' = ![total F u 0 / gamma beta, 0, 0, 0] := by
  obtain ⟨b0, b1, b2, t⟩ := boost_moved (a := fun i => -(boost F u i / total F u 0)) hL hb hb1 h u u' h1 h2 h3
  have hq := gamma_sq hb hb1
  have hg : gamma beta ≠ 0 := fun e => by rw [e] at hq; norm_num at hq
  refine ⟨?_, ?_, t⟩
  · have ht : total F u' = total F u := by rw [(four_static hL h u).1, (four_static hL h u').1]
    have hN : boost F u' = boost F u := by funext i; unfold boost; rw [Steady.const hL h.steady u' u]
    funext i
    unfold place com
    rw [ht, hN]
    fin_cases i
    · show (boost F u 0 + u' * total F u 1) / total F u 0 = boost F u 0 / total F u 0 + 0 * u'
      rw [h1]
      ring
    · show (boost F u 1 + u' * total F u 2) / total F u 0 = boost F u 1 / total F u 0 + 0 * u'
      rw [h2]
      ring
    · show (boost F u 2 + u' * total F u 3) / total F u 0 = boost F u 2 / total F u 0 + beta * u'
      rw [h3]
      field_simp
  · funext i
    unfold place com offset
    rw [t]
    fin_cases i
    · show (boost _ u' 0 + u' * 0) / (total F u 0 / gamma beta) = gamma beta ^ 2 * beta * (angular F u 1 + beta * boost F u 0) / total F u 0
      rw [b0]
      field_simp
      ring
    · show (boost _ u' 1 + u' * 0) / (total F u 0 / gamma beta) = gamma beta ^ 2 * beta * (beta * boost F u 1 - angular F u 0) / total F u 0
      rw [b1]
      field_simp
      ring
    · show (boost _ u' 2 + u' * 0) / (total F u 0 / gamma beta) = 0
      rw [b2]
      field_simp
      ring

/-- C96: with the translation of a second pass the center of mass is at rest at the origin, at all times. -/
theorem two_passes (u' : ℝ) : place (moved beta (shift 0 fun i => -(boost F u i / total F u 0) - offset beta (boost F u) (angular F u) (total F u 0) i) F) u' = (fun _ => 0) ∧
    total (moved beta (shift 0 fun i => -(boost F u i / total F u 0) - offset beta (boost F u) (angular F u) (total F u 0) i) F) u' = ![total F u 0 / gamma beta, 0, 0, 0] := by
  obtain ⟨b0, b1, b2, t⟩ := boost_moved (a := fun i => -(boost F u i / total F u 0) - offset beta (boost F u) (angular F u) (total F u 0) i) hL hb hb1 h u u' h1 h2 h3
  have hq := gamma_sq hb hb1
  have hg : gamma beta ≠ 0 := fun e => by rw [e] at hq; norm_num at hq
  refine ⟨?_, t⟩
  funext i
  unfold place com
  rw [t]
  have o0 : offset beta (boost F u) (angular F u) (total F u 0) 0 = gamma beta ^ 2 * beta * (angular F u 1 + beta * boost F u 0) / total F u 0 := rfl
  have o1 : offset beta (boost F u) (angular F u) (total F u 0) 1 = gamma beta ^ 2 * beta * (beta * boost F u 1 - angular F u 0) / total F u 0 := rfl
  have o2 : offset beta (boost F u) (angular F u) (total F u 0) 2 = 0 := rfl
  fin_cases i
  · show (boost _ u' 0 + u' * 0) / (total F u 0 / gamma beta) = 0
    rw [b0, o0]
    have : boost F u 0 + (-(boost F u 0 / total F u 0) - gamma beta ^ 2 * beta * (angular F u 1 + beta * boost F u 0) / total F u 0) * total F u 0 * (1 - beta ^ 2) + beta * angular F u 1 = 0 := by
      field_simp
      linear_combination (-(beta * (angular F u 1 + beta * boost F u 0))) * hq
    rw [this]
    simp
  · show (boost _ u' 1 + u' * 0) / (total F u 0 / gamma beta) = 0
    rw [b1, o1]
    have : boost F u 1 + (-(boost F u 1 / total F u 0) - gamma beta ^ 2 * beta * (beta * boost F u 1 - angular F u 0) / total F u 0) * total F u 0 * (1 - beta ^ 2) - beta * angular F u 0 = 0 := by
      field_simp
      linear_combination (-(beta * (beta * boost F u 1 - angular F u 0))) * hq
    rw [this]
    simp
  · show (boost _ u' 2 + u' * 0) / (total F u 0 / gamma beta) = 0
    rw [b2, o2]
    have : boost F u 2 + (-(boost F u 2 / total F u 0) - 0) * total F u 0 = 0 := by
      field_simp
      ring
    rw [this]
    simp

omit hL hb hb1 h h0 h1 h2 h3

/-! ## What the code computes -/

/-- C96: what the code computes from the modes of the data at one time is the center-of-mass charge and the four-momentum of the functions with these modes. -/
theorem code_com {mul : Int → Int → Charges.Modes → Charges.Modes → Charges.Modes} (hL : 1 ≤ L) (hmul : Verif.Spec.Balance.IsProduct L mul) (dflt : Int) (d : Charges.Abd)
    (h1 : ∀ θ φ, 0 < θ → θ < Real.pi → F 1 d.t θ φ = field 1 0 L d.psi1 θ φ) (h2 : ∀ θ φ, 0 < θ → θ < Real.pi → F 2 d.t θ φ = field 0 0 L d.psi2 θ φ)
    (h5 : ∀ θ φ, 0 < θ → θ < Real.pi → F 5 d.t θ φ = field 2 0 L d.sigma θ φ)
    (hd : ∀ θ φ, 0 < θ → θ < Real.pi → dt (Spec.BondiFrame.bar (F 5)) d.t θ φ = field (-2) 0 L (Charges.bar 2 d.sigmaDot) θ φ) :
    Charges.bondiFourMomentum mul dflt d = .ok (List.ofFn (total F d.t)) ∧ Charges.bondiCoMCharge mul d = .ok (List.ofFn (com F d.t)) := by
  obtain ⟨g, hg⟩ : ∃ g : Charges.Modes, g = fun ell m => d.psi2 ell m + mul 2 (-2) d.sigma (Charges.bar 2 d.sigmaDot) ell m := ⟨_, rfl⟩
  have cf : ∀ t f, Continuous fun p : ℝ × ℝ => field t 0 L f p.1 p.2 := fun t f => field_cont t f
  have cn : ∀ i : Fin 3, Continuous fun p : ℝ × ℝ => field 0 1 1 (chi i) p.1 p.2 := fun i => by
    exact Verif.Balance.C.field 0 1 1 (chi i)
  have e : total F d.t = fun b => -Spec.Charges.vector g b := by
    rw [← momentum_modes g hL]
    funext b
    unfold total momentum
    congr 2
    rw [solid_congr (G := fun θ φ => (field 0 0 L d.psi2 θ φ + field 2 0 L d.sigma θ φ * field (-2) 0 L (Charges.bar 2 d.sigmaDot) θ φ) * (Spec.Charges.n θ φ b : ℝ)) fun θ φ k0 k1 => by
      beta_reduce
      rw [h2 θ φ k0 k1, h5 θ φ k0 k1, hd θ φ k0 k1]]
    refine Fin.cases ?_ (fun i => ?_) b
    · have l := solid_lin (f := fun θ φ => field 0 0 L d.psi2 θ φ) (g := fun θ φ => field 2 0 L d.sigma θ φ * field (-2) 0 L (Charges.bar 2 d.sigmaDot) θ φ) (cf _ _) ((cf _ _).mul (cf _ _)) 1 1
      have a1 : (solid fun θ φ => (field 0 0 L d.psi2 θ φ + field 2 0 L d.sigma θ φ * field (-2) 0 L (Charges.bar 2 d.sigmaDot) θ φ) * (Spec.Charges.n θ φ 0 : ℝ)) =
          solid fun θ φ => 1 * field 0 0 L d.psi2 θ φ + 1 * (field 2 0 L d.sigma θ φ * field (-2) 0 L (Charges.bar 2 d.sigmaDot) θ φ) := by
        congr 1
        funext θ φ
        simp [Spec.Charges.n]
      have a2 : (solid fun θ φ => field 0 0 L g θ φ * (Spec.Charges.n θ φ 0 : ℝ)) = solid (field 0 0 L g) := by
        congr 1
        funext θ φ
        simp [Spec.Charges.n]
      have a3 := hmul 2 (-2) d.sigma (Charges.bar 2 d.sigmaDot) 0 0 (by norm_num) (by norm_num)
      have hpi := Real.pi_pos
      have hs : ((√(4 * Real.pi) : ℝ) : ℂ) * ((1 / √(4 * Real.pi) : ℝ) : ℂ) = 1 := by
        rw [← Complex.ofReal_mul, mul_one_div_cancel (by positivity), Complex.ofReal_one]
      have a4 : (solid fun θ φ => field 2 0 L d.sigma θ φ * field (-2) 0 L (Charges.bar 2 d.sigmaDot) θ φ) = ((√(4 * Real.pi) : ℝ) : ℂ) * mul 2 (-2) d.sigma (Charges.bar 2 d.sigmaDot) 0 0 := by
        rw [a3, ← Verif.Balance.solid_const]
        congr 1
        funext θ φ
        rw [show (2 : Int) + -2 = 0 by norm_num, Verif.Sphere.Y000, Complex.conj_ofReal, ← mul_assoc, hs, one_mul]
      rw [a1, a2, l, one_mul, one_mul, a4, solid_field (by omega), solid_field (by omega), hg]
      ring
    · have l := solid_lin (f := fun θ φ => field 0 1 1 (chi i) θ φ * field 0 0 L d.psi2 θ φ) (g := fun θ φ => field 0 1 1 (chi i) θ φ * (field 2 0 L d.sigma θ φ * field (-2) 0 L (Charges.bar 2 d.sigmaDot) θ φ))
        ((cn i).mul (cf _ _)) ((cn i).mul ((cf _ _).mul (cf _ _))) 1 1
      have nn : ∀ θ φ, ((Spec.Charges.n θ φ i.succ : ℝ) : ℂ) = field 0 1 1 (chi i) θ φ := fun θ φ => by
        rw [Verif.Props.BoostFlux.chi_field]
        fin_cases i <;> rfl
      have a1 : (solid fun θ φ => (field 0 0 L d.psi2 θ φ + field 2 0 L d.sigma θ φ * field (-2) 0 L (Charges.bar 2 d.sigmaDot) θ φ) * (Spec.Charges.n θ φ i.succ : ℝ)) =
          solid fun θ φ => 1 * (field 0 1 1 (chi i) θ φ * field 0 0 L d.psi2 θ φ) + 1 * (field 0 1 1 (chi i) θ φ * (field 2 0 L d.sigma θ φ * field (-2) 0 L (Charges.bar 2 d.sigmaDot) θ φ)) := by
        congr 1
        funext θ φ
        rw [nn]
        ring
      have a2 : (solid fun θ φ => field 0 0 L g θ φ * (Spec.Charges.n θ φ i.succ : ℝ)) = pair i g := by
        rw [pair_field hL]
        congr 1
        funext θ φ
        rw [nn, mul_comm]
      have a4 : (solid fun θ φ => field 0 1 1 (chi i) θ φ * (field 2 0 L d.sigma θ φ * field (-2) 0 L (Charges.bar 2 d.sigmaDot) θ φ)) = pair i (mul 2 (-2) d.sigma (Charges.bar 2 d.sigmaDot)) := by
        rw [pair_mul hmul i 2 (-2) (by norm_num)]
        unfold T
        congr 1
        funext θ φ
        ring
      rw [a1, a2, l, one_mul, one_mul, a4, ← pair_field hL, hg, Verif.Props.Cwwy.pair_add]
  obtain ⟨G, N, P, g1, g2, g3, g4⟩ := Verif.Props.Charges.CoM_spec mul dflt d
  have k := Verif.Props.Charges.four_momentum_spec mul dflt d
  rw [← hg, ← e] at k
  have hP : P = total F d.t := List.ofFn_injective (Except.ok.inj (g3.symm.trans k))
  have hN : N = boost F d.t := List.ofFn_injective (Except.ok.inj (g2.symm.trans (code_charges hL hmul d h1 h2 h5 hd).1))
  refine ⟨k, ?_⟩
  rw [g1]
  congr 2
  funext i
  rw [g4 i, hP, hN]
  rfl

/-! ## An example: a moving and rotating mass -/

/-- `ψ₂ = τ + a · r`, and `ψ₁` has the modes `q` at the time 0. -/
noncomputable def moving (τ : ℝ) (a : Fin 3 → ℝ) (q : Int → Int → ℂ) : Fin 6 → Spec.BondiFrame.Field := fun c u θ φ =>
  if c = 2 then (shift τ a θ φ : ℂ) else if c = 1 then field 1 0 1 q θ φ + u * field 1 0 1 (Charges.ethGHP 0 (modes τ a)) θ φ else 0

theorem moving_static (τ : ℝ) (a : Fin 3 → ℝ) (q : Int → Int → ℂ) : Static 1 q (modes τ a) (fun _ _ => 0) (moving τ a q) := by
  have h5 : moving τ a q 5 = fun _ _ _ => 0 := rfl
  have h4 : moving τ a q 4 = fun _ _ _ => 0 := rfl
  have h3 : moving τ a q 3 = fun _ _ _ => 0 := rfl
  have h2 : moving τ a q 2 = A (shift τ a) := rfl
  have h1 : moving τ a q 1 = fun (u : ℝ) θ φ => field 1 0 1 q θ φ + u * field 1 0 1 (Charges.ethGHP 0 (modes τ a)) θ φ := rfl
  have h0 : moving τ a q 0 = fun _ _ _ => 0 := rfl
  have low : ∀ p ell m, 0 ≤ ell → ell ≤ 1 → Charges.ethGHP 1 p ell m = 0 := by
    intro p ell m a b
    have : ell = 0 ∨ ell = 1 := by omega
    rcases this with rfl | rfl
    · have : √(-1) = 0 := Real.sqrt_eq_zero_of_nonpos (by norm_num)
      simp [Charges.ethGHP, this]
    · simp [Charges.ethGHP]
  have z : ∀ u θ φ, 0 < θ → θ < Real.pi → Spec.BondiFrame.eth 1 (moving τ a q 1) u θ φ = 0 := by
    intro u θ φ k0 k1
    have : Spec.BondiFrame.eth 1 (moving τ a q 1) u θ φ = Spec.BondiFrame.eth 1 (fun _ => moving τ a q 1 u) u θ φ := rfl
    rw [this, Verif.Props.BondiFrame.eth_modes (s := 1) (s' := 2) (by norm_num) (L := 1) (g := fun ell m => q ell m + u * Charges.ethGHP 0 (modes τ a) ell m) (fun _ θ φ _ _ => by
      rw [h1, Verif.Props.AngMomIntegral.field_sum, Verif.Props.SphereOps.field_const]) u θ φ k0 k1]
    exact Finset.sum_eq_zero fun ell h => Finset.sum_eq_zero fun m _ => by
      rw [Finset.mem_Icc] at h
      rw [low _ ell m h.1 h.2, zero_mul]
  refine ⟨⟨?_, ?_, ?_, ?_, ?_, ?_⟩, ?_, ?_, ?_, ?_⟩
  · intro u θ φ k0 k1
    rw [z u θ φ k0 k1]
    simp [h0, h5, dt]
  · intro u θ φ k0 k1
    rw [h2, Verif.Props.BondiFrame.eth_modes (s := 0) (s' := 1) (by norm_num) (L := 1) (g := modes τ a) (fun u θ φ _ _ => A_shift le_rfl u θ φ) u θ φ k0 k1, h5, h1]
    unfold dt
    have : HasDerivAt (fun u : ℝ => field 1 0 1 q θ φ + u * field 1 0 1 (Charges.ethGHP 0 (modes τ a)) θ φ) (1 * field 1 0 1 (Charges.ethGHP 0 (modes τ a)) θ φ) u :=
      ((Complex.ofRealCLM.hasDerivAt (x := u)).mul_const _).const_add _
    rw [this.deriv]
    ring
  · intro u θ φ k0 k1
    simp [h2, h3, h5, dt, A, Spec.BondiFrame.eth, Spec.SphereOps.ethOp]
  · intro u θ φ k0 k1
    simp [h3, h5, dt, Spec.BondiFrame.bar, Spec.BondiFrame.eth, Spec.SphereOps.ethOp]
  · intro u θ φ k0 k1
    simp [h4, h5, dt, Spec.BondiFrame.bar]
  · intro u θ φ k0 k1
    simp [h2, h5, A, Spec.BondiFrame.massAspect, dt, Spec.BondiFrame.bar, Spec.BondiFrame.eth, Spec.SphereOps.ethOp]
  · intro c
    by_cases hc : c = 2
    · subst hc
      rw [h2]
      exact shift_smooth
    by_cases hc : c = 1
    · subst hc
      rw [h1]
      refine Smooth_add (smooth_field 1 0 1 q) (Smooth_mul (f := fun u _ _ => (u : ℂ)) (fun u θ φ _ _ => ?_) (smooth_field 1 0 1 _))
      exact (Complex.ofRealCLM.contDiff.comp contDiff_fst).contDiffAt
    · intro u θ φ _ _
      have : (fun p : ℝ × ℝ × ℝ => moving τ a q c p.1 p.2.1 p.2.2) = fun _ => 0 := by
        funext p
        simp [moving, *]
      rw [this]
      exact contDiffAt_const
  · intro u θ φ k0 k1
    simp [h5, field]
  · intro θ φ k0 k1
    simp [h1]
  · intro θ φ k0 k1
    rw [h2]
    exact A_shift le_rfl 0 θ φ

/-- Its charges. -/
theorem moving_charges (τ : ℝ) (a : Fin 3 → ℝ) (q : Int → Int → ℂ) (u : ℝ) :
    total (moving τ a q) u = ![-τ, -(a 0 / 3), -(a 1 / 3), -(a 2 / 3)] ∧ ∀ i, dipole (aspect (moving τ a q) u) i = (-(1 / (4 * Real.pi)) : ℝ) * pair i q := by
  have h := moving_static τ a q
  have hpi := Real.pi_pos
  have hs : √(4 * Real.pi) * √(4 * Real.pi) = 4 * Real.pi := Real.mul_self_sqrt (by positivity)
  obtain ⟨-, t0, t1⟩ := four_static le_rfl h u
  constructor
  · have m0 : modes τ a 0 0 = ((τ * √(4 * Real.pi) : ℝ) : ℂ) := by simp [modes, Supertranslation.trans, constant, chi_ne]
    have m1 : ∀ i, pair i (modes τ a) = ((4 * Real.pi / 3 * a i : ℝ) : ℂ) := fun i => by
      obtain ⟨a1, a2, a3, a4, a5, a6, a7, a8, a9⟩ := Verif.Props.BoostFlux.chi_values
      have r : √(2 * Real.pi / 3) * √(2 * Real.pi / 3) = 2 * Real.pi / 3 := Real.mul_self_sqrt (by positivity)
      have r' : √(4 * Real.pi / 3) * √(4 * Real.pi / 3) = 4 * Real.pi / 3 := Real.mul_self_sqrt (by positivity)
      have hm : ∀ m : Int, m.natAbs ≤ 1 → modes τ a 1 m = a 0 * chi 0 1 m + (a 1 * chi 1 1 m + a 2 * chi 2 1 m) := fun m hm => by
        simp [modes, hm, Supertranslation.trans, constant]
      generalize √(2 * Real.pi / 3) = x at *
      generalize √(4 * Real.pi / 3) = y at *
      unfold pair
      rw [hm _ (by norm_num), hm _ (by norm_num), hm _ (by norm_num)]
      fin_cases i
      · simp only [Fin.zero_eta, a1, a2, a3, a4, a5, a6, a7, a8, a9]
        apply Complex.ext <;> simp <;> linear_combination (2 * a 0) * r
      · simp only [Fin.mk_one, a1, a2, a3, a4, a5, a6, a7, a8, a9]
        apply Complex.ext <;> simp <;> linear_combination (2 * a 1) * r
      · simp only [Fin.reduceFinMk, a1, a2, a3, a4, a5, a6, a7, a8, a9]
        apply Complex.ext <;> simp <;> linear_combination (a 2) * r'
    funext b
    refine Fin.cases ?_ (fun i => ?_) b
    · have : ((total (moving τ a q) u 0 : ℝ) : ℂ) = ((-τ : ℝ) : ℂ) := by
        rw [t0, m0, ← Complex.ofReal_mul, ← Complex.ofReal_mul]
        congr 1
        field_simp
        linear_combination -τ * hs
      exact Complex.ofReal_injective this
    · have : ((total (moving τ a q) u i.succ : ℝ) : ℂ) = ((-(a i / 3) : ℝ) : ℂ) := by
        rw [t1, m1, ← Complex.ofReal_mul]
        congr 1
        field_simp
      rw [Complex.ofReal_injective this]
      fin_cases i <;> rfl
  · intro i
    have c : dipole (aspect (moving τ a q) u) i = dipole (aspect (moving τ a q) 0) i := by rw [Steady.const le_rfl h.steady u 0]
    rw [c, dipole_dn (H := fun θ φ => field 1 0 1 q θ φ) (fun θ φ k0 k1 => ?_) i, pair_field1 le_rfl]
    · rw [← Verif.Balance.solid_const ((1 / √2 : ℝ) : ℂ)]
      congr 1
      exact solid_congr fun θ φ h0 h1 => by beta_reduce; rw [dn_modes i θ φ h0 h1]; ring
    · have e1 : moving τ a q 1 0 θ φ = field 1 0 1 q θ φ := h.psi1 θ φ k0 k1
      have e5 : moving τ a q 5 = fun _ _ _ => 0 := rfl
      unfold aspect
      rw [e1, e5]
      simp [Spec.BondiFrame.eth, Spec.SphereOps.ethOp]

/-- A mass with energy 1, momentum `(0, 0, 3/5)` and angular momentum `(1, 0, 0)`. -/
noncomputable def top : Fin 6 → Spec.BondiFrame.Field := moving (-1) ![0, 0, -(9 / 5)] fun ell m => -3 * Complex.I * chi 0 ell m

theorem top_charges (u : ℝ) : total top u = ![1, 0, 0, 3 / 5] ∧ boost top u = 0 ∧ angular top u = ![1, 0, 0] := by
  obtain ⟨h1, h2⟩ := moving_charges (-1) ![0, 0, -(9 / 5)] (fun ell m => -3 * Complex.I * chi 0 ell m) u
  have hpi := Real.pi_pos
  have e : ∀ i, pair i (fun ell m => -3 * Complex.I * chi 0 ell m) = if i = 0 then -(4 * Real.pi * Complex.I) else 0 := fun i => by
    obtain ⟨a1, a2, a3, a4, a5, a6, a7, a8, a9⟩ := Verif.Props.BoostFlux.chi_values
    have r : √(2 * Real.pi / 3) * √(2 * Real.pi / 3) = 2 * Real.pi / 3 := Real.mul_self_sqrt (by positivity)
    generalize √(2 * Real.pi / 3) = x at *
    generalize √(4 * Real.pi / 3) = y at *
    unfold pair
    fin_cases i
    · simp only [Fin.zero_eta, a1, a2, a3]
      apply Complex.ext <;> simp
      linear_combination -6 * r
    · simp only [Fin.mk_one, a1, a2, a3, a4, a5, a6]
      apply Complex.ext <;> simp
    · simp only [Fin.reduceFinMk, a1, a2, a3, a7, a8, a9]
      apply Complex.ext <;> simp
  refine ⟨?_, ?_, ?_⟩
  · unfold top
    rw [h1]
    funext b
    fin_cases b
    · norm_num
    · norm_num
    · norm_num
    · show -(-(9 / 5 : ℝ) / 3) = 3 / 5
      norm_num
  · funext i
    unfold boost top
    rw [h2, e]
    split_ifs <;> simp
  · funext i
    unfold angular top
    rw [h2, e, Complex.im_ofReal_mul]
    fin_cases i
    · simp
      field_simp
    · simp
    · simp

/-- C96: one pass is not enough.  After it, the center of mass of this mass is at rest at the distance `15/16` from the origin. -/
theorem one_pass_is_not_enough (u u' : ℝ) : place (moved (3 / 5) (shift 0 fun i => -(boost top u i / total top u 0)) top) u' = ![0, -(15 / 16), 0] := by
  obtain ⟨t, b, j⟩ := top_charges u
  have hs := moving_static (-1) ![0, 0, -(9 / 5)] fun ell m => -3 * Complex.I * chi 0 ell m
  have hg := gamma_sq (beta := 3 / 5) (by norm_num) (by norm_num)
  rw [(one_pass (beta := 3 / 5) (F := top) le_rfl (by norm_num) (by norm_num) hs u (by rw [t]; norm_num) (by rw [t]; rfl) (by rw [t]; rfl) (by rw [t]; show (3 / 5 : ℝ) = 3 / 5 * 1; norm_num) u').2.1, t, b, j]
  unfold offset
  funext i
  fin_cases i
  · simp
  · simp
    linarith
  · rfl

end Verif.Props.ComFrame
