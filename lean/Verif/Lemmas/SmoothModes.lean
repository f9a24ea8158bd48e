import Verif.Lemmas.Jets
import Verif.Lemmas.Sphere
import Verif.Lemmas.WignerConj
import Verif.Props.SphereOps

/-!
# Functions given by modes: smoothness, derivatives, conjugates
-/

namespace Verif.Jets
open Verif.Spec.BondiFrame Verif.Spec.SphereOps Verif.AbdTransform Verif.GridMultiply Verif.Spec.Sphere ComplexConjugate
open scoped ContDiff

theorem coef_smooth (n i j : ℕ) : ContDiff ℝ ∞ fun θ : ℝ => Verif.Wigner.coef n (Real.cos (θ / 2) : ℝ) (-(Real.sin (θ / 2) : ℝ)) (Real.sin (θ / 2) : ℝ) (Real.cos (θ / 2) : ℝ) i j := by
  have hc : ContDiff ℝ ∞ fun θ : ℝ => ((Real.cos (θ / 2) : ℝ) : ℂ) := Complex.ofRealCLM.contDiff.comp (Real.contDiff_cos.comp (contDiff_id.div_const 2))
  have hs : ContDiff ℝ ∞ fun θ : ℝ => ((Real.sin (θ / 2) : ℝ) : ℂ) := Complex.ofRealCLM.contDiff.comp (Real.contDiff_sin.comp (contDiff_id.div_const 2))
  unfold Verif.Wigner.coef
  refine ContDiff.sum fun ρ _ => ?_
  exact ((((contDiff_const.mul contDiff_const).mul (hc.pow _)).mul (hs.neg.pow _)).mul (hs.pow _)).mul (hc.pow _)

theorem smooth_Y (s ell m : Int) (h1 : -ell ≤ m) (h2 : m ≤ ell) : ContDiff ℝ ∞ fun p : E => Y s ell m (rotor p.2.1 p.2.2) := by
  by_cases h : |s| ≤ ell
  · simp only [Y_rotor h h1 h2]
    have hθ : ContDiff ℝ ∞ fun p : E => p.2.1 := contDiff_fst.comp contDiff_snd
    have hφ : ContDiff ℝ ∞ fun p : E => p.2.2 := contDiff_snd.comp contDiff_snd
    have := (coef_smooth (2 * ell).toNat (ell + m).toNat (ell + -s).toNat).comp hθ
    have hφ' : ContDiff ℝ ∞ fun p : E => ((p.2.2 : ℝ) : ℂ) := Complex.ofRealCLM.contDiff.comp hφ
    simp only [Function.comp_def] at this
    fun_prop
  · simp only [Y, if_neg h]
    exact contDiff_const

theorem smooth_field (s a b : Int) (f : Int → Int → ℂ) : Smooth fun _ θ φ => field s a b f θ φ := by
  intro u θ φ _ _
  refine ContDiff.contDiffAt ?_
  unfold field
  refine ContDiff.sum fun ell _ => ContDiff.sum fun m hm => ?_
  rw [Finset.mem_Icc] at hm
  exact contDiff_const.mul (smooth_Y s ell m hm.1 hm.2)

/-- The modes of a real function. -/
def RealModes (a : Int → Int → ℂ) : Prop := ∀ ell m, a ell (-m) = (-1) ^ m.natAbs * conj (a ell m)

theorem RealModes.bar {a : Int → Int → ℂ} (h : RealModes a) : Charges.bar 0 a = a := by
  funext ell m
  unfold Charges.bar
  rw [h ell m, zero_add, map_mul, Complex.conj_conj, ← mul_assoc, map_pow, map_neg, map_one, ← mul_pow]
  simp

theorem field_conj (s L : Int) (f : Int → Int → ℂ) (θ φ : ℝ) : conj (field s 0 L f θ φ) = field (-s) 0 L (Charges.bar s f) θ φ := expansion_conj s L f (rotor θ φ)

theorem field_real {a : Int → Int → ℂ} (h : RealModes a) (L : Int) (θ φ : ℝ) : (field 0 0 L a θ φ).im = 0 := by
  have := field_conj 0 L a θ φ
  rw [h.bar] at this
  exact Complex.conj_eq_iff_im.1 this

theorem eth_field {s s' : Int} (hs : s + 1 = s') {f : Field} {c : ℂ} {L : Int} {g : Int → Int → ℂ} (h : ∀ u θ φ, 0 < θ → θ < Real.pi → f u θ φ = c * field s 0 L g θ φ) (u θ φ : ℝ) (h0 : 0 < θ) (h1 : θ < Real.pi) :
    eth s f u θ φ = c / (√2 : ℝ) * field s' 0 L (Verif.Spec.Boost.eth s g) θ φ := by
  subst hs
  have j := ((smooth_jet s (smooth_field s 0 L g) u θ φ h0 h1).smul c).congr (g := f) h0 h1 h
  rw [j.eth, (Props.SphereOps.eth_differential s 0 L g θ φ (Real.sin_pos_of_pos_of_lt_pi h0 h1).ne').1]
  unfold Spec.BondiFrame.eth
  ring

/-- `ð²ð̄²α` is real for a real function `α` given by its modes. -/
theorem quartic_real {a : Int → Int → ℂ} (h : RealModes a) (L : Int) {f : Field} (hf : ∀ u θ φ, f u θ φ = field 0 0 L a θ φ) (u θ φ : ℝ) (h0 : 0 < θ) (h1 : θ < Real.pi) :
    (eth (-1) (eth (-2) (bar (eth 1 (eth 0 f)))) u θ φ).im = 0 := by
  have e0 := eth_field (s := 0) (s' := 1) (by norm_num) (f := f) (c := 1) (L := L) (g := a) fun u θ φ _ _ => by rw [hf, one_mul]
  have e1 := eth_field (s := 1) (s' := 2) (by norm_num) e0
  have e2 : ∀ u θ φ, 0 < θ → θ < Real.pi → bar (eth 1 (eth 0 f)) u θ φ = (1 / (√2 : ℝ) / (√2 : ℝ) : ℂ) * field (-2) 0 L (Charges.bar 2 (Verif.Spec.Boost.eth 1 (Verif.Spec.Boost.eth 0 a))) θ φ := by
    intro u θ φ h0 h1
    unfold Spec.BondiFrame.bar
    rw [e1 u θ φ h0 h1, map_mul]
    congr 1
    · simp
    · exact field_conj 2 L _ θ φ
  have e3 := eth_field (s := -2) (s' := -1) (by norm_num) e2
  have e4 := eth_field (s := -1) (s' := 0) (by norm_num) e3 u θ φ h0 h1
  have h2 : ((√2 : ℝ) : ℂ) * (√2 : ℝ) = 2 := by exact_mod_cast congrArg (fun x : ℝ => (x : ℂ)) (Real.mul_self_sqrt (by norm_num : (0 : ℝ) ≤ 2))
  rw [e4, div_div, div_div, div_div, h2, ← mul_assoc, h2]
  have hr : RealModes (Verif.Spec.Boost.eth (-1) (Verif.Spec.Boost.eth (-2) (Charges.bar 2 (Verif.Spec.Boost.eth 1 (Verif.Spec.Boost.eth 0 a))))) := by
    intro ell m
    unfold Verif.Spec.Boost.eth Charges.bar
    have hm := h ell m
    have hs1 : (-1 : ℂ) ^ (2 + -m).natAbs = (-1) ^ m.natAbs := by rw [← Verif.Wigner.sign_add, Int.natAbs_neg]; norm_num
    have hs2 : (-1 : ℂ) ^ (2 + m).natAbs = (-1) ^ m.natAbs := by rw [← Verif.Wigner.sign_add]; norm_num
    simp only [map_mul, Complex.conj_ofReal, neg_neg, hs1, hs2, Complex.conj_conj, map_pow, map_neg, map_one, hm]
    have hq : (-1 : ℂ) ^ m.natAbs * (-1) ^ m.natAbs = 1 := by rw [← mul_pow]; simp
    generalize (-1 : ℂ) ^ m.natAbs = x at hq
    have h3 : x * x * x = x := by rw [hq, one_mul]
    generalize conj (a ell m) = y
    rw [show ∀ p q r t : ℂ, x * (p * (q * (x * (r * (t * (x * y)))))) = (x * x * x) * (p * q * r * t * y) from fun p q r t => by ring, h3]
    ring
  have := field_real hr L θ φ
  rw [Complex.mul_im, this]
  norm_num

end Verif.Jets
