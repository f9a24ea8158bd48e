import Verif.Lemmas.Translation
import Verif.Model.Cwwy
import Verif.Props.Superrest
import Verif.Props.Balance
import Verif.Model.AbdTransform

/-!
# The angular momentum of Chen, Wang, Wang and Yau, and charges in supertranslated frames
-/

namespace Verif.Props.Cwwy
open Verif.GridMultiply Verif.Spec.Sphere Verif.Spec.Boost Verif.Spec.Balance Verif.Balance Verif.Props.SphereOps Verif.Charges Verif.Triple Verif.Spec.Supertranslation Verif.Spec.Charges
open Verif.Supertranslation Verif.Cwwy ComplexConjugate
open Verif.Modes (lmIndex)

/-! ## The potential -/

/-- C77: the potential has no modes with `ell < 2`, and the operator `𝔇 = ð²ð̄²` takes it to `ð̄²σ + ð²σ̄`. -/
theorem potential_spec (ellMax : Int) (d : Abd) (ell m : Int) (h0 : 0 ≤ ell) (hl : ell ≤ ellMax) (hm : |m| ≤ ell) :
    (ell < 2 → potential ellMax d ell m = 0) ∧
    ethGHP (-1) (ethGHP (-2) (ethbarGHP (-1) (ethbarGHP 0 (potential ellMax d)))) ell m = ethbarGHP 1 (ethbarGHP 2 d.sigma) ell m + ethGHP (-1) (ethGHP (-2) (bar 2 d.sigma)) ell m := by
  have hm' := abs_le.1 hm
  have hM : Verif.Spec.Superrest.IsMode ell m := hm'
  have e : potential ellMax d ell m = (ethbarGHP 1 (ethbarGHP 2 d.sigma) ell m + ethGHP (-1) (ethGHP (-2) (bar 2 d.sigma)) ell m) * Superrest.factorDinv ell := by
    unfold potential modesOfRow
    rw [if_pos hl, Verif.Props.Superrest.Dinv_get _ _ _ _ hM hl]
    unfold rowOf
    rw [Verif.Lemmas.Superrest.sqrt_index ell m hM, show lmIndex ell m 0 - ell * (ell + 1) = m by unfold lmIndex; ring]
  refine ⟨fun h => ?_, ?_⟩
  · rw [e]
    unfold Superrest.factorDinv
    rw [if_pos h, mul_zero]
  · by_cases h : ell < 2
    · rw [Verif.Props.Charges.eth_eth_low _ ell m h0 (by omega), Verif.Props.Charges.eth_eth_low _ ell m h0 (by omega), Verif.Props.Charges.ethbar_ethbar_low _ ell m h0 (by omega), add_zero]
    · have hh := Verif.Props.Superrest.factors ell h
      rw [show ethGHP (-1) (ethGHP (-2) (ethbarGHP (-1) (ethbarGHP 0 (potential ellMax d)))) ell m = Superrest.factorD ell * potential ellMax d ell m by
        unfold ethGHP ethbarGHP Superrest.factorD
        rw [if_neg h]
        have hx : (ell : ℂ) = ((ell : ℝ) : ℂ) := by norm_cast
        have h2 : (2 : ℝ) ≤ ell := by exact_mod_cast (show 2 ≤ ell by omega)
        push_cast
        rw [hx]
        generalize (ell : ℝ) = x at *
        rw [show (x - -1) * (x + -1 + 1) / 2 = x * (x + 1) / 2 by ring, show (x + 0) * (x - 0 + 1) / 2 = x * (x + 1) / 2 by ring,
          show (x - -2) * (x + -2 + 1) / 2 = (x + 2) * (x - 1) / 2 by ring, show (x + -1) * (x - -1 + 1) / 2 = (x + 2) * (x - 1) / 2 by ring]
        have e1 : ((√(x * (x + 1) / 2) : ℝ) : ℂ) * ((√(x * (x + 1) / 2) : ℝ) : ℂ) = x * (x + 1) / 2 := by
          rw [← Complex.ofReal_mul, Real.mul_self_sqrt (by nlinarith)]; push_cast; ring
        have e2 : ((√((x + 2) * (x - 1) / 2) : ℝ) : ℂ) * ((√((x + 2) * (x - 1) / 2) : ℝ) : ℂ) = (x + 2) * (x - 1) / 2 := by
          rw [← Complex.ofReal_mul, Real.mul_self_sqrt (by nlinarith)]; push_cast; ring
        linear_combination potential ellMax d ell m * (((√((x + 2) * (x - 1) / 2) : ℝ) : ℂ) * ((√((x + 2) * (x - 1) / 2) : ℝ) : ℂ)) * e1 + potential ellMax d ell m * (x * (x + 1) / 2) * e2]
      rw [e]
      linear_combination (ethbarGHP 1 (ethbarGHP 2 d.sigma) ell m + ethGHP (-1) (ethGHP (-2) (bar 2 d.sigma)) ell m) * hh

/-! ## Charges as integrals -/

theorem pair_add (i : Fin 3) (f g : Modes) : pair i (fun ell m => f ell m + g ell m) = pair i f + pair i g := by unfold pair; ring
theorem pair_congr (i : Fin 3) {f g : Modes} (h : ∀ m, |m| ≤ 1 → f 1 m = g 1 m) : pair i f = pair i g := by
  unfold pair; rw [h (-1) (by simp), h 0 (by simp), h 1 (by simp)]

theorem vec_I (f : Modes) (i : Fin 3) : vector (fun ell m => Complex.I * f ell m) i.succ = -(pair i f).im / (4 * Real.pi) := by
  rw [vec_chi]
  congr 1
  have : pair i (fun ell m => Complex.I * f ell m) = Complex.I * pair i f := by unfold pair; ring
  rw [this, Complex.mul_re, Complex.I_re, Complex.I_im]
  ring

theorem vec_neg (f : Modes) (i : Fin 3) : vector (fun ell m => -f ell m) i.succ = -(pair i f).re / (4 * Real.pi) := by
  rw [vec_chi]
  congr 1
  have : pair i (fun ell m => -f ell m) = -pair i f := by unfold pair; ring
  rw [this, Complex.neg_re]

theorem trunc_one (f : Modes) (m : Int) : truncateEll 1 f 1 m = f 1 m := by unfold truncateEll; rw [if_pos le_rfl]

/-- The aspect of the angular momentum of Bondi data, without the factor `i`. -/
noncomputable def aspect (mul : Int → Int → Modes → Modes → Modes) (d : Abd) : Modes := fun ell m =>
  d.psi1 ell m + mul 2 (-1) d.sigma (ethGHP (-2) (bar 2 d.sigma)) ell m

theorem charge_I (f : Modes) : (do let v ← chargeVectorFromAspect (view1 fun ell m => Complex.I * f ell m); pure (v.drop 1)) =
    (Except.ok (List.ofFn fun i : Fin 3 => -(pair i f).im / (4 * Real.pi)) : Py (List ℝ)) := by
  rw [Verif.Props.Charges.chargeVector_spec, ok_bind, pure_eq_ok]
  congr 1
  simp only [← vec_I]
  rw [List.ofFn_succ]
  rfl

theorem bondi_eq (mul : Int → Int → Modes → Modes → Modes) (d : Abd) : bondiAngularMomentum mul d = .ok (List.ofFn fun i : Fin 3 => -(pair i (aspect mul d)).im / (4 * Real.pi)) := by
  have h := charge_I (fun ell m => truncateEll 1 d.psi1 ell m + truncateEll 1 (mul 2 (-1) d.sigma (ethGHP (-2) (bar 2 d.sigma))) ell m)
  unfold bondiAngularMomentum
  rw [h]
  congr 2

theorem cwwy_eq (mul : Int → Int → Modes → Modes → Modes) (b : Int) (d : Abd) : cwwyAngularMomentum mul b d = .ok (List.ofFn fun i : Fin 3 =>
    -(pair i (aspect mul d) + pair i (mul 0 1 (potential b d) (ethGHP 0 (massAspect mul b d (.callable b))))).im / (4 * Real.pi)) := by
  have h := charge_I (fun ell m => truncateEll 1 d.psi1 ell m + truncateEll 1 (mul 2 (-1) d.sigma (ethGHP (-2) (bar 2 d.sigma))) ell m
    + truncateEll 1 (mul 0 1 (potential b d) (ethGHP 0 (massAspect mul b d (.callable b)))) ell m)
  unfold cwwyAngularMomentum
  rw [h]
  congr 2
  funext i
  rw [← pair_add, pair_congr i (g := fun ell m => aspect mul d ell m + mul 0 1 (potential b d) (ethGHP 0 (massAspect mul b d (.callable b))) ell m) fun m _ => by rw [trunc_one, trunc_one, trunc_one]; rfl]

theorem half : ((1 / √2 : ℝ) : ℂ) * ((1 / √2 : ℝ) : ℂ) = 1 / 2 := by
  rw [← Complex.ofReal_mul, div_mul_div_comm, Real.mul_self_sqrt (by norm_num)]
  norm_num

section
variable {b : Int} {mul : Int → Int → Modes → Modes → Modes} (hmul : IsProduct b mul)
include hmul

/-- Products of spin weight 1 with a factor `ð g`. -/
theorem pair_T (i : Fin 3) (s t : Int) (f g : Modes) (h : s + (t + 1) = 1) : pair i (mul s (t + 1) f (ethGHP t g)) = 1 / 2 * T b (-1) (ethbar 0 (chi i)) s f (t + 1) (eth t g) := by
  rw [proj1 (((C.field s 0 b f).mul (C.field (t + 1) 0 b (eth t g))).const ((1 / √2 : ℝ) : ℂ))]
  · have e : (fun θ φ => field (-1) 1 1 (ethbar 0 (chi i)) θ φ * (((1 / √2 : ℝ) : ℂ) * (field s 0 b f θ φ * field (t + 1) 0 b (eth t g) θ φ))) = fun θ φ =>
        ((1 / √2 : ℝ) : ℂ) * (field (-1) 1 1 (ethbar 0 (chi i)) θ φ * field s 0 b f θ φ * field (t + 1) 0 b (eth t g) θ φ) := by
      funext θ φ
      ring
    rw [e, solid_const, ← mul_assoc, half]
    rfl
  · intro m hm
    rw [hmul s (t + 1) _ _ 1 m (by rw [h]; norm_num) hm, ghp]
    congr 1
    funext θ φ
    rw [field_const, h]
    ring

end

/-! ## The shear -/

/-- The modes of the shear that have a harmonic. -/
def cut (f : Modes) : Modes := fun ell m => if ell < 2 then 0 else f ell m

theorem cut_field (b : Int) (f : Modes) : field 2 0 b f = field 2 0 b (cut f) := by
  funext θ φ
  refine field_congr _ _ _ _ _ θ φ fun ell m h1 h2 h3 h4 => ?_
  unfold cut
  split_ifs with h
  · rw [Verif.SphereDeriv.Y_zero (by rw [abs_of_pos (by norm_num : (0 : Int) < 2)]; omega), mul_zero, mul_zero]
  · rfl

theorem cut_eth (b : Int) (f : Modes) : Agree 0 b (eth (-2) (bar 2 f)) (eth (-2) (bar 2 (cut f))) := by
  intro ell m h1 _ _
  unfold eth bar cut
  split_ifs with h
  · have : ell = 0 ∨ ell = 1 := by omega
    rcases this with rfl | rfl
    · rw [show ((((0 : Int) : ℝ) - ((-2 : Int) : ℝ)) * (((0 : Int) : ℝ) + ((-2 : Int) : ℝ) + 1)) = -2 by norm_num, Real.sqrt_eq_zero_of_nonpos (by norm_num)]
      norm_num
    · norm_num
  · rfl

theorem cut_ethbar (b : Int) (f : Modes) : Agree 0 b (ethbar 1 (ethbar 2 f)) (ethbar 1 (ethbar 2 (cut f))) := by
  intro ell m h1 _ _
  unfold ethbar cut
  split_ifs with h
  · have : ell = 0 ∨ ell = 1 := by omega
    rcases this with rfl | rfl <;> norm_num
  · rfl

theorem T_cut (b sN : Int) (N f : Modes) : T b sN N 2 f (-1) (eth (-2) (bar 2 f)) = T b sN N 2 (cut f) (-1) (eth (-2) (bar 2 (cut f))) := by
  rw [← T_congr (Agree.refl N) (Agree.refl (cut f)) (cut_eth b f)]
  unfold T
  rw [cut_field]

theorem ghp_bar (s : Int) (f : Modes) : ethbarGHP s f = fun ell m => ((1 / √2 : ℝ) : ℂ) * ethbar s f ell m := by
  funext ell m
  unfold ethbarGHP ethbar
  rw [neg_mul, neg_mul, mul_neg, ← mul_assoc, ← Complex.ofReal_mul]
  congr 3
  rw [show (((ell + s) * (ell - s + 1) : Int) : ℝ) / 2 = ((ell : ℝ) + s) * (ell - s + 1) / 2 by push_cast; ring, Real.sqrt_div' _ (by norm_num)]
  ring

theorem ghp2 (s t : Int) (f : Modes) (ell m : Int) : ethGHP s (ethGHP t f) ell m = 1 / 2 * eth s (eth t f) ell m := by
  rw [ghp, ghp t, eth_smul, ← half]; ring
theorem ghpbar2 (s t : Int) (f : Modes) (ell m : Int) : ethbarGHP s (ethbarGHP t f) ell m = 1 / 2 * ethbar s (ethbar t f) ell m := by
  rw [ghp_bar, ghp_bar t, ethbar_smul, ← half]; ring

/-! ## Supertranslations -/

section
variable {b : Int} {mul : Int → Int → Modes → Modes → Modes} (hb : 1 ≤ b) {d d' : Abd} {α : Modes} {τ : ℝ} {a : Fin 3 → ℝ}

theorem bar_add (s : Int) (f g : Modes) : bar s (fun ell m => f ell m + g ell m) = fun ell m => bar s f ell m + bar s g ell m := by
  funext ell m; unfold bar; rw [map_add]; ring
theorem bar_smul (s : Int) (k : ℝ) (f : Modes) : bar s (fun ell m => (k : ℂ) * f ell m) = fun ell m => (k : ℂ) * bar s f ell m := by
  funext ell m; unfold bar; rw [map_mul, Complex.conj_ofReal]; ring

theorem cut_real (hα : IsReal b α τ a) : Agree 0 b (bar 0 (cut α)) (cut α) := by
  intro ell m h1 h2 h3
  unfold cut
  by_cases h : ell < 2
  · unfold bar; simp [h]
  · rw [if_neg h, ← hα.real ell m h1 h2 h3]
    unfold bar; simp [h]

theorem split_α (hα : IsReal b α τ a) (δ : ℝ) : Agree 0 b (fun ell m => α ell m + constant δ ell m) (fun ell m => cut α ell m + trans (τ + δ) a ell m) := by
  intro ell m h1 h2 h3
  show α ell m + constant δ ell m = cut α ell m + (constant (τ + δ) ell m + ((a 0 : ℂ) * chi 0 ell m + ((a 1 : ℂ) * chi 1 ell m + (a 2 : ℂ) * chi 2 ell m)))
  unfold cut constant
  rcases lt_or_ge ell 2 with h | h
  · have : ell = 0 ∨ ell = 1 := by omega
    rcases this with rfl | rfl
    · obtain rfl : m = 0 := by rw [abs_le] at h3; omega
      rw [hα.time, chi_ne 0 0 0 (by norm_num), chi_ne 1 0 0 (by norm_num), chi_ne 2 0 0 (by norm_num)]
      norm_num
      ring
    · rw [hα.space m h3, Fin.sum_univ_three]
      norm_num
      ring
  · rw [if_neg (by omega), if_neg (by omega), if_neg (by omega), chi_ne 0 ell m (by omega), chi_ne 1 ell m (by omega), chi_ne 2 ell m (by omega)]
    ring

include hb

/-- `ψ₁` in the new frame. -/
theorem pair_psi1 (hα : IsReal b α τ a) (h : Supertranslated b α d d') (i : Fin 3) : pair i d'.psi1 = pair i d.psi1 +
    1 / 2 * (3 * T b (-1) (ethbar 0 (chi i)) 0 d.psi2 1 (eth 0 (cut α)) + T b (-1) (ethbar 0 (chi i)) 1 (eth 0 d.psi2) 0 (cut α)) +
    (T b (-1) (ethbar 0 (chi i)) 0 d.psi2 1 (eth 0 (trans (τ + (d'.t - d.t)) a)) + T b 0 (chi i) 0 d.psi2 0 (trans (τ + (d'.t - d.t)) a)) := by
  have hreal : ∀ θ φ, ((field 0 0 b α θ φ).re : ℂ) = field 0 0 b α θ φ := by
    intro θ φ
    rw [← Complex.conj_eq_iff_re, field_conj, neg_zero]
    exact field_congr _ _ _ _ _ θ φ fun ell m h1 h2 h3 h4 => by rw [hα.real ell m h1 h2 (abs_le.2 ⟨h3, h4⟩)]
  set β : Modes := fun ell m => α ell m + constant (d'.t - d.t) ell m with hβ
  have fβ : ∀ θ φ, ((d'.t + (field 0 0 b α θ φ).re - d.t : ℝ) : ℂ) = field 0 0 b β θ φ := by
    intro θ φ
    rw [hβ, Verif.Props.AngMomIntegral.field_sum, constant_field (by omega)]
    push_cast
    rw [hreal]
    ring
  have eβ : ∀ θ φ, field 1 0 b (eth 0 α) θ φ = field 1 0 b (eth 0 β) θ φ := by
    intro θ φ
    rw [hβ, eth_add, Verif.Props.AngMomIntegral.field_sum, constant_eth, add_zero]
  have c1 : C fun θ φ => field 1 0 b d.psi1 θ φ := C.field _ _ _ _
  have c2 : C fun θ φ => field 0 0 b β θ φ * field 1 0 b (eth 0 d.psi2) θ φ := (C.field _ _ _ _).mul (C.field _ _ _ _)
  have c3 : C fun θ φ => field 1 0 b (eth 0 β) θ φ * field 0 0 b d.psi2 θ φ := (C.field _ _ _ _).mul (C.field _ _ _ _)
  have cA : C fun θ φ => field 1 0 b d.psi1 θ φ + (((1 / √2 : ℝ) : ℂ) * (field 0 0 b β θ φ * field 1 0 b (eth 0 d.psi2) θ φ) + (3 * ((1 / √2 : ℝ) : ℂ)) * (field 1 0 b (eth 0 β) θ φ * field 0 0 b d.psi2 θ φ)) :=
    c1.add ((c2.const _).add (c3.const _))
  rw [proj1 cA]
  · have cN : C fun θ φ => field (-1) 1 1 (ethbar 0 (chi i)) θ φ * field 1 0 b d.psi1 θ φ := (C.field _ _ _ _).mul c1
    have e : (fun θ φ => field (-1) 1 1 (ethbar 0 (chi i)) θ φ * (field 1 0 b d.psi1 θ φ + (((1 / √2 : ℝ) : ℂ) * (field 0 0 b β θ φ * field 1 0 b (eth 0 d.psi2) θ φ) + (3 * ((1 / √2 : ℝ) : ℂ)) * (field 1 0 b (eth 0 β) θ φ * field 0 0 b d.psi2 θ φ)))) =
        fun θ φ => field (-1) 1 1 (ethbar 0 (chi i)) θ φ * field 1 0 b d.psi1 θ φ + (((1 / √2 : ℝ) : ℂ) * (field (-1) 1 1 (ethbar 0 (chi i)) θ φ * field 0 0 b β θ φ * field 1 0 b (eth 0 d.psi2) θ φ)
          + (3 * ((1 / √2 : ℝ) : ℂ)) * (field (-1) 1 1 (ethbar 0 (chi i)) θ φ * field 1 0 b (eth 0 β) θ φ * field 0 0 b d.psi2 θ φ)) := by
      funext θ φ
      ring
    rw [e, solid_add cN ((C3.const _).add (C3.const _)), solid_add (C3.const _) (C3.const _), solid_const, solid_const, mul_add, ← pair_field1 hb]
    have t1 : (solid fun θ φ => field (-1) 1 1 (ethbar 0 (chi i)) θ φ * field 0 0 b β θ φ * field 1 0 b (eth 0 d.psi2) θ φ) = T b (-1) (ethbar 0 (chi i)) 0 β 1 (eth 0 d.psi2) := rfl
    have t2 : (solid fun θ φ => field (-1) 1 1 (ethbar 0 (chi i)) θ φ * field 1 0 b (eth 0 β) θ φ * field 0 0 b d.psi2 θ φ) = T b (-1) (ethbar 0 (chi i)) 1 (eth 0 β) 0 d.psi2 := rfl
    have hs := split_α hα (d'.t - d.t)
    have e1 : eth 0 (fun ell m => cut α ell m + trans (τ + (d'.t - d.t)) a ell m) = fun ell m => eth 0 (cut α) ell m + eth 0 (trans (τ + (d'.t - d.t)) a) ell m := eth_add 0 _ _
    rw [t1, t2, T_congr (Agree.refl _) hs (Agree.refl _), T_congr (Agree.refl _) (hs.eth 0) (Agree.refl _), e1, T_add, T_add]
    have p := p_ethbar_eth (b := b) i 0 d.psi2 0 (trans (τ + (d'.t - d.t)) a) (by norm_num)
    rw [show (0 : Int) + 1 = 1 by norm_num] at p
    have q1 := T_swap (b := b) (-1) (ethbar 0 (chi i)) 0 (cut α) 1 (eth 0 d.psi2)
    have q2 := T_swap (b := b) (-1) (ethbar 0 (chi i)) 1 (eth 0 (cut α)) 0 d.psi2
    have q3 := T_swap (b := b) (-1) (ethbar 0 (chi i)) 0 (trans (τ + (d'.t - d.t)) a) 1 (eth 0 d.psi2)
    have q4 := T_swap (b := b) (-1) (ethbar 0 (chi i)) 1 (eth 0 (trans (τ + (d'.t - d.t)) a)) 0 d.psi2
    rw [q1, q2, q3, q4]
    linear_combination (1 / 2) * p + (T b (-1) (ethbar 0 (chi i)) 1 (eth 0 d.psi2) 0 (cut α) + T b (-1) (ethbar 0 (chi i)) 1 (eth 0 d.psi2) 0 (trans (τ + (d'.t - d.t)) a) +
      3 * (T b (-1) (ethbar 0 (chi i)) 0 d.psi2 1 (eth 0 (cut α)) + T b (-1) (ethbar 0 (chi i)) 0 d.psi2 1 (eth 0 (trans (τ + (d'.t - d.t)) a)))) * half
  · intro m hm
    rw [h.psi1 m hm]
    congr 1
    funext θ φ
    unfold psi1At
    rw [fβ, ghp, ghp, field_const, field_const, eβ]
    ring

omit hb in
/-- The shear in the new frame. -/
theorem shear_terms (hα : IsReal b α τ a) (h : Supertranslated b α d d') (i : Fin 3) :
    T b (-1) (ethbar 0 (chi i)) 2 (cut d'.sigma) (-1) (eth (-2) (bar 2 (cut d'.sigma))) = T b (-1) (ethbar 0 (chi i)) 2 (cut d.sigma) (-1) (eth (-2) (bar 2 (cut d.sigma)))
      - 1 / 2 * (T b (-1) (ethbar 0 (chi i)) 2 (eth 1 (eth 0 (cut α))) (-1) (eth (-2) (bar 2 (cut d.sigma))) + X3 b i (cut d.sigma) (cut α)) + 1 / 4 * X3 b i (eth 1 (eth 0 (cut α))) (cut α) := by
  have hs : Agree 0 b (cut d'.sigma) (fun ell m => cut d.sigma ell m + ((-1 / 2 : ℝ) : ℂ) * eth 1 (eth 0 (cut α)) ell m) := by
    intro ell m h1 h2 h3
    by_cases hl : ell < 2
    · show (if ell < 2 then 0 else _) = (if ell < 2 then 0 else _) + _ * (_ * (_ * (if ell < 2 then (0 : ℂ) else _)))
      rw [if_pos hl, if_pos hl, if_pos hl]
      ring
    · have e : eth 1 (eth 0 (cut α)) ell m = eth 1 (eth 0 α) ell m := by unfold eth cut; rw [if_neg hl]
      show (if ell < 2 then 0 else d'.sigma ell m) = (if ell < 2 then 0 else d.sigma ell m) + _
      rw [if_neg hl, if_neg hl, e, h.sigma ell m (by omega) h2 h3, ghp2]
      push_cast
      ring
  have hs' : Agree 0 b (eth (-2) (bar 2 (cut d'.sigma))) (fun ell m => eth (-2) (bar 2 (cut d.sigma)) ell m + ((-1 / 2 : ℝ) : ℂ) * eth (-2) (ethbar (-1) (ethbar 0 (cut α))) ell m) := by
    have hb1 : Agree 0 b (bar 2 (cut d'.sigma)) (fun ell m => bar 2 (cut d.sigma) ell m + ((-1 / 2 : ℝ) : ℂ) * ethbar (-1) (ethbar 0 (cut α)) ell m) := by
      intro ell m h1 h2 h3
      have e1 := hs ell (-m) h1 h2 (by rwa [abs_neg])
      have e2 := bar_eth2 (cut_real hα) ell m h1 h2 h3
      show bar 2 (cut d'.sigma) ell m = bar 2 (cut d.sigma) ell m + ((-1 / 2 : ℝ) : ℂ) * ethbar (-1) (ethbar 0 (cut α)) ell m
      rw [← e2]
      unfold bar
      rw [e1]
      beta_reduce
      rw [map_add, map_mul, Complex.conj_ofReal]
      ring
    have := hb1.eth (-2)
    rw [eth_add, eth_smul] at this
    exact this
  rw [T_congr (Agree.refl _) hs hs', T_add, T_add', T_add', T_smul, T_smul, T_smul', T_smul']
  unfold X3
  push_cast
  ring

omit hb in
/-- The potential in the new frame. -/
theorem potential_shift (hα : IsReal b α τ a) (h : Supertranslated b α d d') : Agree 0 b (potential b d') (fun ell m => potential b d ell m + ((-2 : ℝ) : ℂ) * cut α ell m) := by
  intro ell m h1 h2 h3
  have hM : Verif.Spec.Superrest.IsMode ell m := abs_le.1 h3
  have e : ∀ d : Abd, potential b d ell m = (ethbarGHP 1 (ethbarGHP 2 d.sigma) ell m + ethGHP (-1) (ethGHP (-2) (bar 2 d.sigma)) ell m) * Superrest.factorDinv ell := by
    intro d
    unfold potential modesOfRow
    rw [if_pos h2, Verif.Props.Superrest.Dinv_get _ _ _ _ hM h2]
    unfold rowOf
    rw [Verif.Lemmas.Superrest.sqrt_index ell m hM, show lmIndex ell m 0 - ell * (ell + 1) = m by unfold lmIndex; ring]
  show potential b d' ell m = potential b d ell m + ((-2 : ℝ) : ℂ) * (if ell < 2 then 0 else α ell m)
  rw [e, e]
  by_cases hl : ell < 2
  · unfold Superrest.factorDinv
    rw [if_pos hl, if_pos hl]
    ring
  · have hh := Verif.Props.Superrest.factors ell hl
    have f1 := (four α ell m h1).1
    have f2 := (four α ell m h1).2
    have es : ∀ m, |m| ≤ ell → d'.sigma ell m = d.sigma ell m + ((-1 / 2 : ℝ) : ℂ) * eth 1 (eth 0 α) ell m := by
      intro m hm
      rw [h.sigma ell m (by omega) h2 hm, ghp2]
      push_cast
      ring
    have s1 : ethbar 1 (ethbar 2 d'.sigma) ell m = ethbar 1 (ethbar 2 d.sigma) ell m - 1 / 2 * ethbar 1 (ethbar 2 (eth 1 (eth 0 α))) ell m := by
      have := es m h3
      unfold ethbar
      rw [this]
      push_cast
      ring
    have hα' : Agree 0 b (bar 0 α) α := hα.real
    have s2 : eth (-1) (eth (-2) (bar 2 d'.sigma)) ell m = eth (-1) (eth (-2) (bar 2 d.sigma)) ell m - 1 / 2 * eth (-1) (eth (-2) (ethbar (-1) (ethbar 0 α))) ell m := by
      have e2 := bar_eth2 hα' ell m h1 h2 h3
      have e3 : bar 2 d'.sigma ell m = bar 2 d.sigma ell m - 1 / 2 * ethbar (-1) (ethbar 0 α) ell m := by
        rw [← e2]
        unfold bar
        rw [es (-m) (by rwa [abs_neg]), map_add, map_mul, Complex.conj_ofReal]
        push_cast
        ring
      unfold eth
      rw [e3]
      ring
    rw [ghpbar2, ghpbar2, ghp2, ghp2, s1, s2, f1, f2, if_neg hl]
    have hf : Superrest.factorD ell = ((ell + 2) * (ell + 1) * ell * (ell - 1)) / 4 := by unfold Superrest.factorD; rw [if_neg hl]
    rw [hf] at hh
    push_cast
    linear_combination (-2 * α ell m) * hh

omit hb in
theorem mass_modes (hmul : IsProduct b mul) (hn : ∀ ell m, d.sigmaDot ell m = 0) : Agree 0 b (massAspect mul b d (.callable b)) (fun ell m => ((-1 : ℝ) : ℂ) * re d.psi2 ell m) := by
  have z : bar 2 d.sigmaDot = fun _ _ => 0 := by
    funext ell m
    unfold bar
    rw [hn, map_zero, mul_zero]
  have p : ∀ ell m, 0 ≤ ell → ell ≤ b → |m| ≤ ell → truncateEll b (mul 2 (-2) d.sigma (bar 2 d.sigmaDot)) ell m = 0 := by
    intro ell m h1 h2 h3
    unfold truncateEll
    rw [if_pos h2, hmul 2 (-2) _ _ ell m (by norm_num; exact h1) h3, z]
    have : (fun θ φ => conj (Y (2 + -2) ell m (rotor θ φ)) * (field 2 0 b d.sigma θ φ * field (-2) 0 b (fun _ _ => 0) θ φ)) = fun θ φ => (0 : ℂ) * field 0 0 b d.sigma θ φ := by
      funext θ φ
      rw [field_zero]
      ring
    rw [this, solid_const, zero_mul]
  intro ell m h1 h2 h3
  show -(re (fun ell m => d.psi2 ell m + truncateEll b (mul 2 (-2) d.sigma (bar 2 d.sigmaDot)) ell m) ell m) = _
  have q1 := p ell m h1 h2 h3
  have q2 := p ell (-m) h1 h2 (by rwa [abs_neg])
  unfold re bar at *
  beta_reduce
  rw [q1, q2]
  push_cast
  ring_nf

/-- The change of the aspects: `z` is real. -/
theorem aspect_change (hmul : IsProduct b mul) (hd : Nonradiative b d) (hα : IsReal b α τ a) (h : Supertranslated b α d d') (i : Fin 3) : ∃ z : ℂ, conj z = z ∧
    pair i (aspect mul d') = pair i (aspect mul d) + z - T b (-1) (ethbar 0 (chi i)) 0 (cut α) 1 (eth 0 (re d.psi2)) +
      (T b (-1) (ethbar 0 (chi i)) 0 d.psi2 1 (eth 0 (trans (τ + (d'.t - d.t)) a)) + T b 0 (chi i) 0 d.psi2 0 (trans (τ + (d'.t - d.t)) a)) ∧
    pair i (mul 0 1 (potential b d') (ethGHP 0 (massAspect mul b d' (.callable b)))) = pair i (mul 0 1 (potential b d) (ethGHP 0 (massAspect mul b d (.callable b)))) +
      T b (-1) (ethbar 0 (chi i)) 0 (cut α) 1 (eth 0 (re d.psi2)) := by
  have hg := cut_real hα
  set g := cut α with hgdef
  set S := cut d.sigma with hS
  set R : Modes := re d.psi2 with hR
  set K : Modes := fun ell m => 1 / 2 * (d.psi2 ell m + -1 * bar 0 d.psi2 ell m) with hK
  have Rr : Agree 0 b (bar 0 R) R := by
    rw [hR, Verif.Props.Charges.bar_re]
    exact Agree.refl _
  have psi : Agree 0 b d.psi2 (fun ell m => R ell m + K ell m) := by
    intro ell m _ _ _
    show d.psi2 ell m = (d.psi2 ell m + bar 0 d.psi2 ell m) / 2 + 1 / 2 * (d.psi2 ell m + -1 * bar 0 d.psi2 ell m)
    ring
  have hK4 : Agree 0 b (fun ell m => 4 * K ell m) (fun ell m => ethbar 1 (ethbar 2 S) ell m + -1 * eth (-1) (eth (-2) (bar 2 S)) ell m) := by
    intro ell m h1 h2 h3
    have r := hd.real ell m h1 h2 h3
    have e1 := cut_ethbar b d.sigma ell m h1 h2 h3
    have e2 := (cut_eth b d.sigma).eth (-1) ell m h1 h2 h3
    have bS : bar 0 (ethbar 1 (ethbar 2 d.sigma)) = eth (-1) (eth (-2) (bar 2 d.sigma)) := by
      have h := bar_ethbar 1 (ethbar 2 d.sigma)
      have h' := bar_ethbar 2 d.sigma
      rw [show (1 : Int) - 1 = 0 by norm_num] at h
      rw [show (2 : Int) - 1 = 1 by norm_num] at h'
      rw [h, h']
    have bb : bar 0 (fun ell m => ethGHP (-1) (ethGHP (-2) (bar 2 d.sigma)) ell m) = fun ell m => ((1 / 2 : ℝ) : ℂ) * ethbar 1 (ethbar 2 d.sigma) ell m := by
      have : (fun ell m => ethGHP (-1) (ethGHP (-2) (bar 2 d.sigma)) ell m) = fun ell m => ((1 / 2 : ℝ) : ℂ) * bar 0 (ethbar 1 (ethbar 2 d.sigma)) ell m := by
        funext ell m
        rw [ghp2, bS]
        push_cast
        ring
      rw [this, bar_smul, Verif.Props.Charges.bar_bar]
    dsimp only at r
    rw [bar_add 0 d.psi2 (fun ell m => ethGHP (-1) (ethGHP (-2) (bar 2 d.sigma)) ell m), bb, ghp2] at r
    show 4 * (1 / 2 * (d.psi2 ell m + -1 * bar 0 d.psi2 ell m)) = ethbar 1 (ethbar 2 S) ell m + -1 * eth (-1) (eth (-2) (bar 2 S)) ell m
    rw [hS, ← e1, ← e2]
    push_cast at r
    linear_combination -2 * r
  have lp := linear_part i hg S
  have qp := quadratic_part i hg
  have ip := imaginary_part i hg K S hK4
  have rp := real_part i hg R Rr
  refine ⟨1 / 2 * (3 * (T b (-1) (ethbar 0 (chi i)) 0 R 1 (eth 0 g) + T b (-1) (ethbar 0 (chi i)) 1 (eth 0 R) 0 g) + (3 * T b (-1) (ethbar 0 (chi i)) 0 K 1 (eth 0 g) + T b (-1) (ethbar 0 (chi i)) 1 (eth 0 K) 0 g)
    - 1 / 2 * (T b (-1) (ethbar 0 (chi i)) 2 (eth 1 (eth 0 g)) (-1) (eth (-2) (bar 2 S)) + X3 b i S g) + 1 / 4 * X3 b i (eth 1 (eth 0 g)) g), ?_, ?_, ?_⟩
  · generalize T b (-1) (ethbar 0 (chi i)) 0 R 1 (eth 0 g) + T b (-1) (ethbar 0 (chi i)) 1 (eth 0 R) 0 g = r at *
    generalize 3 * T b (-1) (ethbar 0 (chi i)) 0 K 1 (eth 0 g) + T b (-1) (ethbar 0 (chi i)) 1 (eth 0 K) 0 g = k at *
    generalize T b (-1) (ethbar 0 (chi i)) 2 (eth 1 (eth 0 g)) (-1) (eth (-2) (bar 2 S)) + X3 b i S g = l at *
    dsimp only at lp ip rp
    simp only [map_mul, map_add, map_sub, map_div₀, map_one, Complex.conj_ofNat, qp]
    linear_combination (-3 / 2) * rp - 1 / 2 * ip + 1 / 4 * lp
  · have e := fun d : Abd => pair_T hmul i 2 (-2) d.sigma (bar 2 d.sigma) (by norm_num)
    norm_num at e
    have p1 := T_congr (b := b) (sN := -1) (s := 0) (t := 1) (Agree.refl (ethbar 0 (chi i))) psi (Agree.refl (eth 0 g))
    have p2 := T_congr (b := b) (sN := -1) (s := 1) (t := 0) (Agree.refl (ethbar 0 (chi i))) (psi.eth 0) (Agree.refl g)
    rw [T_add] at p1
    rw [eth_add, T_add] at p2
    unfold aspect
    rw [pair_add, pair_add, pair_psi1 hb hα h, e, e, T_cut, T_cut b _ _ d.sigma, shear_terms hα h, ← hgdef, p1, p2, T_swap _ _ 0 g]
    ring
  · have e := fun d : Abd => pair_T hmul i 0 0 (potential b d) (massAspect mul b d (.callable b)) (by norm_num)
    norm_num at e
    have m1 := mass_modes hmul hd.news
    have m2 := mass_modes hmul h.news
    have m3 : Agree 0 b (massAspect mul b d' (.callable b)) (fun ell m => ((-1 : ℝ) : ℂ) * re d.psi2 ell m) := by
      intro ell m h1 h2 h3
      rw [m2 ell m h1 h2 h3]
      unfold re bar
      beta_reduce
      rw [h.psi2 ell m h1 h2 h3, h.psi2 ell (-m) h1 h2 (by rwa [abs_neg])]
    have m1' := m1.eth 0
    have m3' := m3.eth 0
    rw [eth_smul] at m1' m3'
    have e' := e d'
    have e'' := e d
    norm_num at e' e''
    rw [e', e'', T_congr (Agree.refl _) (potential_shift hα h) m3', T_congr (Agree.refl _) (Agree.refl (potential b d)) m1', T_smul', T_smul', T_add, T_smul]
    push_cast
    ring

omit hb in
theorem low_real (hd : Nonradiative b d) (ell m : Int) (h0 : 0 ≤ ell) (h1 : ell ≤ 1) (hb : ell ≤ b) (hm : |m| ≤ ell) : bar 0 d.psi2 ell m = d.psi2 ell m := by
  have h := hd.real ell m h0 hb hm
  dsimp only at h
  rw [bar_add 0 d.psi2 (fun ell m => ethGHP (-1) (ethGHP (-2) (bar 2 d.sigma)) ell m)] at h
  have e := fun m => Verif.Props.Charges.eth_eth_low (bar 2 d.sigma) ell m h0 h1
  have e' : bar 0 (fun ell m => ethGHP (-1) (ethGHP (-2) (bar 2 d.sigma)) ell m) ell m = 0 := by
    show (-1) ^ (0 + m).natAbs * conj (ethGHP (-1) (ethGHP (-2) (bar 2 d.sigma)) ell (-m)) = 0
    rw [e, map_zero, mul_zero]
  rw [e, add_zero] at h
  have h2 : bar 0 d.psi2 ell m + bar 0 (fun ell m => ethGHP (-1) (ethGHP (-2) (bar 2 d.sigma)) ell m) ell m = d.psi2 ell m := h
  rwa [e', add_zero] at h2

omit hb in
theorem pair_real (f : Modes) (hf : Agree 0 1 (bar 0 f) f) (i : Fin 3) : (pair i f).im = 0 := by
  rw [← Complex.conj_eq_iff_im, pair_field le_rfl, ← solid_conj ((C.field _ _ _ _).mul (C.field _ _ _ _))]
  congr 1
  funext θ φ
  rw [map_mul, Balance.conj_chi, field_conj, neg_zero, hf.field]

omit hb in
theorem zero_real (f : Modes) (hf : Agree 0 1 (bar 0 f) f) : (f 0 0).im = 0 := by
  have h := hf 0 0 le_rfl (by norm_num) (by norm_num)
  unfold bar at h
  rw [← Complex.conj_eq_iff_im]
  simpa using h

omit hb in
/-- The energy and momentum of data without radiation. -/
theorem momentum_eq (hmul : IsProduct b mul) (hn : ∀ ell m, d.sigmaDot ell m = 0) (dflt : Int) : ∃ p : Fin 4 → ℝ, bondiFourMomentum mul dflt d = .ok (List.ofFn p) ∧
    p 0 = -(d.psi2 0 0).re / √(4 * Real.pi) ∧ ∀ k : Fin 3, p k.succ = -(pair k d.psi2).re / (4 * Real.pi) := by
  have z : bar 2 d.sigmaDot = fun _ _ => 0 := by
    funext ell m
    unfold bar
    rw [hn, map_zero, mul_zero]
  have q : ∀ ell m, 0 ≤ ell → ell ≤ 1 → |m| ≤ ell → mul 2 (-2) d.sigma (bar 2 d.sigmaDot) ell m = 0 := by
    intro ell m h1 h2 h3
    rw [hmul 2 (-2) _ _ ell m (by norm_num; exact h1) h3, z]
    have : (fun θ φ => conj (Y (2 + -2) ell m (rotor θ φ)) * (field 2 0 b d.sigma θ φ * field (-2) 0 b (fun _ _ => 0) θ φ)) = fun θ φ => (0 : ℂ) * field 0 0 b d.sigma θ φ := by
      funext θ φ
      rw [field_zero]
      ring
    rw [this, solid_const, zero_mul]
  refine ⟨_, Verif.Props.Charges.four_momentum_spec mul dflt d, ?_, fun k => ?_⟩
  · rw [vec_zero, q 0 0 le_rfl (by norm_num) (by norm_num), add_zero]
    ring
  · rw [vec_chi, pair_congr k (g := d.psi2) fun m hm => by rw [q 1 m (by norm_num) le_rfl hm, add_zero]]
    ring

/-- The change of the angular momentum for a translation. -/
theorem trans_im (hd : Nonradiative b d) (i : Fin 3) (δ : ℝ) :
    (T b (-1) (ethbar 0 (chi i)) 0 d.psi2 1 (eth 0 (trans δ a)) + T b 0 (chi i) 0 d.psi2 0 (trans δ a)).im = cross a (fun k => (pair k d.psi2).re) i ∧
    (T b (-1) (ethbar 0 (chi i)) 0 d.psi2 1 (eth 0 (trans δ a)) + T b 0 (chi i) 0 d.psi2 0 (trans δ a)).re = a i * (√(4 * Real.pi) * (d.psi2 0 0).re) + δ * (pair i d.psi2).re := by
  have hr : Agree 0 1 (bar 0 d.psi2) d.psi2 := fun ell m h0 h1 hm => low_real hd ell m h0 h1 (by omega) hm
  have p := pair_real d.psi2 hr
  have z := zero_real d.psi2 hr
  rw [trans_integral hb]
  have c0 : ∀ x y : Fin 3 → ℝ, cross x y 0 = x 1 * y 2 - x 2 * y 1 := fun _ _ => rfl
  have c1 : ∀ x y : Fin 3 → ℝ, cross x y 1 = x 2 * y 0 - x 0 * y 2 := fun _ _ => rfl
  have c2 : ∀ x y : Fin 3 → ℝ, cross x y 2 = x 0 * y 1 - x 1 * y 0 := fun _ _ => rfl
  have key : ∀ (x y : ℝ) (j k : Fin 3), (a i * (((√(4 * Real.pi) : ℝ) : ℂ) * d.psi2 0 0) + δ * pair i d.psi2 + Complex.I * (x * pair j d.psi2 - y * pair k d.psi2) : ℂ).im = x * (pair j d.psi2).re - y * (pair k d.psi2).re ∧
      (a i * (((√(4 * Real.pi) : ℝ) : ℂ) * d.psi2 0 0) + δ * pair i d.psi2 + Complex.I * (x * pair j d.psi2 - y * pair k d.psi2) : ℂ).re = a i * (√(4 * Real.pi) * (d.psi2 0 0).re) + δ * (pair i d.psi2).re := by
    intro x y j k
    simp only [Complex.add_im, Complex.add_re, Complex.mul_im, Complex.mul_re, Complex.sub_im, Complex.sub_re, Complex.I_im, Complex.I_re, Complex.ofReal_im, Complex.ofReal_re, p, z]
    constructor <;> ring
  fin_cases i
  · exact key (a 1) (a 2) 2 1
  · exact key (a 2) (a 0) 0 2
  · exact key (a 0) (a 1) 1 0

omit hb in
theorem cross_p (p : Fin 4 → ℝ) (f : Modes) (hp : ∀ k : Fin 3, p k.succ = -(pair k f).re / (4 * Real.pi)) (i : Fin 3) : cross a (fun k => p k.succ) i = -cross a (fun k => (pair k f).re) i / (4 * Real.pi) := by
  have e : (fun k : Fin 3 => p k.succ) = fun k => -(pair k f).re / (4 * Real.pi) := funext hp
  rw [e]
  unfold cross
  fin_cases i
  · show a 1 * _ - a 2 * _ = -(a 1 * _ - a 2 * _) / _
    ring
  · show a 2 * _ - a 0 * _ = -(a 2 * _ - a 0 * _) / _
    ring
  · show a 0 * _ - a 1 * _ = -(a 0 * _ - a 1 * _) / _
    ring

/-- C77: in the absence of radiation, the angular momentum of `CWWY_angular_momentum` in a supertranslated frame, at any time, is that in the original frame plus the cross
product of the space translation and the momentum: it does not depend on the time, nor on the part of the supertranslation with `ell >= 2`. -/
theorem cwwy_supertranslation (hmul : IsProduct b mul) (hd : Nonradiative b d) (hα : IsReal b α τ a) (h : Supertranslated b α d d') (dflt : Int) :
    ∃ (J J' : Fin 3 → ℝ) (p : Fin 4 → ℝ), cwwyAngularMomentum mul b d = .ok (List.ofFn J) ∧ cwwyAngularMomentum mul b d' = .ok (List.ofFn J') ∧
      bondiFourMomentum mul dflt d = .ok (List.ofFn p) ∧ bondiFourMomentum mul dflt d' = .ok (List.ofFn p) ∧ ∀ i, J' i = J i + cross a (fun k => p k.succ) i := by
  obtain ⟨p, hp, p0, pk⟩ := momentum_eq hmul hd.news dflt
  obtain ⟨p', hp', p0', pk'⟩ := momentum_eq hmul h.news dflt
  have e : p' = p := by
    funext k
    refine Fin.cases ?_ (fun k => ?_) k
    · rw [p0, p0', h.psi2 0 0 le_rfl (by omega) (by norm_num)]
    · rw [pk, pk', pair_congr k fun m hm => h.psi2 1 m (by norm_num) hb hm]
  rw [e] at hp'
  refine ⟨_, _, p, cwwy_eq mul b d, cwwy_eq mul b d', hp, hp', fun i => ?_⟩
  obtain ⟨z, hz, e1, e2⟩ := aspect_change hb hmul hd hα h i
  have t := (trans_im (a := a) hb hd i (τ + (d'.t - d.t))).1
  rw [Complex.conj_eq_iff_im] at hz
  rw [cross_p p d.psi2 pk i, ← t, e1, e2]
  simp only [Complex.add_im, Complex.sub_im, hz]
  ring

/-- C77: the angular momentum of `bondi_angular_momentum` changes with the part of the supertranslation with `ell >= 2`, by the product of the mass aspect and the rotation of
the supertranslation. -/
theorem bondi_supertranslation (hmul : IsProduct b mul) (hd : Nonradiative b d) (hα : IsReal b α τ a) (h : Supertranslated b α d d') (dflt : Int) :
    ∃ (J J' : Fin 3 → ℝ) (p : Fin 4 → ℝ), bondiAngularMomentum mul d = .ok (List.ofFn J) ∧ bondiAngularMomentum mul d' = .ok (List.ofFn J') ∧
      bondiFourMomentum mul dflt d = .ok (List.ofFn p) ∧
      ∀ i, J' i = J i + cross a (fun k => p k.succ) i - (Verif.Spec.AngMom.inner 2 b (re d.psi2) (Verif.Spec.AngMom.L i α)).im / (4 * Real.pi) := by
  obtain ⟨p, hp, p0, pk⟩ := momentum_eq hmul hd.news dflt
  refine ⟨_, _, p, bondi_eq mul d, bondi_eq mul d', hp, fun i => ?_⟩
  obtain ⟨z, hz, e1, -⟩ := aspect_change hb hmul hd hα h i
  have t := (trans_im (a := a) hb hd i (τ + (d'.t - d.t))).1
  rw [Complex.conj_eq_iff_im] at hz
  have hg := cut_real hα
  have Rr : Agree 0 b (bar 0 (re d.psi2)) (re d.psi2) := by
    rw [Verif.Props.Charges.bar_re]
    exact Agree.refl _
  have rp := real_part i hg (re d.psi2) Rr
  dsimp only at rp
  have rim : (T b (-1) (ethbar 0 (chi i)) 0 (re d.psi2) 1 (eth 0 (cut α)) + T b (-1) (ethbar 0 (chi i)) 1 (eth 0 (re d.psi2)) 0 (cut α)).im = 0 := by
    rw [← Complex.conj_eq_iff_im]
    exact (sub_eq_zero.1 rp).symm
  have hin : Verif.Spec.AngMom.inner 2 b (re d.psi2) (Verif.Spec.AngMom.L i α) = Verif.Spec.AngMom.inner 0 b (re d.psi2) (Verif.Spec.AngMom.L i (cut α)) := by
    unfold Verif.Spec.AngMom.inner
    refine (Finset.sum_congr rfl fun ell he => Finset.sum_congr rfl fun m hm => ?_).trans (Finset.sum_subset (fun x hx => ?_) fun x hx hx' => Finset.sum_eq_zero fun m _ => ?_)
    · rw [Finset.mem_Icc] at he
      have hc : ∀ n, cut α ell n = α ell n := fun n => if_neg (by omega)
      beta_reduce
      congr 1
      unfold Verif.Spec.AngMom.L Verif.Spec.AngMom.raise Verif.Spec.AngMom.lower
      rw [hc, hc, hc]
    · rw [Finset.mem_Icc] at hx ⊢
      omega
    · rw [Finset.mem_Icc] at hx hx'
      have : Verif.Spec.AngMom.L i (cut α) x m = 0 := by
        have hc : ∀ n, cut α x n = 0 := fun n => if_pos (by omega)
        unfold Verif.Spec.AngMom.L Verif.Spec.AngMom.raise Verif.Spec.AngMom.lower
        rw [hc, hc, hc]
        simp
      rw [this, mul_zero]
  have hL : Verif.Spec.AngMom.inner 0 b (re d.psi2) (Verif.Spec.AngMom.L i (cut α)) = 1 / 2 * (T b (-1) (ethbar 0 (chi i)) 0 (re d.psi2) 1 (eth 0 (cut α)) - conj (T b (-1) (ethbar 0 (chi i)) 0 (re d.psi2) 1 (eth 0 (cut α)))) := by
    have c := conj_ebar (b := b) i 0 (re d.psi2) 1 (eth 0 (cut α))
    rw [neg_zero, T_congr (Agree.refl _) Rr (bar_eth0 hg)] at c
    rw [c, ← Verif.Props.FluxIntegral.parseval 0 0 b (by norm_num)]
    unfold T
    have sb : ∀ x y : ℂ, x - y = x + (-1) * y := fun x y => by ring
    rw [sb, ← solid_const (-1), ← solid_add C3 (C3.const _), ← solid_const]
    refine solid_congr fun θ φ hθ => ?_
    rw [L_eth i 0 0 b (cut α) θ φ hθ, field_conj, neg_zero, Rr.field]
    norm_num
    ring
  rw [cross_p p d.psi2 pk i, ← t, e1, hin, hL, T_swap _ _ 0 (cut α)]
  generalize T b (-1) (ethbar 0 (chi i)) 0 (re d.psi2) 1 (eth 0 (cut α)) = x at *
  generalize T b (-1) (ethbar 0 (chi i)) 1 (eth 0 (re d.psi2)) 0 (cut α) = y at *
  have ex : (1 / 2 * (x - conj x) : ℂ).im = x.im := by
    simp [Complex.mul_im]
    ring
  rw [ex]
  simp only [Complex.add_im, Complex.sub_im, hz] at rim ⊢
  field_simp
  linear_combination rim

omit hb in
theorem T_zero (sN s t : Int) (N f g : Modes) (h : Agree 0 b g fun _ _ => 0) : T b sN N s f t g = 0 := by
  unfold T
  rw [h.field]
  have : (fun θ φ => field sN 1 1 N θ φ * field s 0 b f θ φ * field t 0 b (fun _ _ => 0) θ φ) = fun θ φ => (0 : ℂ) * field s 0 b f θ φ := by
    funext θ φ
    rw [field_zero]
    ring
  rw [this, solid_const, zero_mul]

/-- C77: under time and space translations in the absence of radiation, `bondi_angular_momentum` changes by the cross product of the translation and the momentum, and
`bondi_CoM_charge` by the energy times the space translation and the momentum times the time that has passed. -/
theorem translation (hmul : IsProduct b mul) (hd : Nonradiative b d) (hα : IsReal b α τ a) (h : Supertranslated b α d d') (hp : ∀ ell m, 2 ≤ ell → ell ≤ b → |m| ≤ ell → α ell m = 0) (dflt : Int) :
    ∃ (J J' G G' : Fin 3 → ℝ) (p : Fin 4 → ℝ), bondiAngularMomentum mul d = .ok (List.ofFn J) ∧ bondiAngularMomentum mul d' = .ok (List.ofFn J') ∧
      bondiCoMCharge mul d = .ok (List.ofFn G) ∧ bondiCoMCharge mul d' = .ok (List.ofFn G') ∧
      bondiFourMomentum mul dflt d = .ok (List.ofFn p) ∧ bondiFourMomentum mul dflt d' = .ok (List.ofFn p) ∧
      (∀ i, J' i = J i + cross a (fun k => p k.succ) i) ∧ ∀ i, G' i = G i + p 0 * a i + (d'.t + τ - d.t) * p i.succ := by
  obtain ⟨p, hp1, p0, pk⟩ := momentum_eq hmul hd.news dflt
  obtain ⟨p', hp', p0', pk'⟩ := momentum_eq hmul h.news dflt
  have e : p' = p := by
    funext k
    refine Fin.cases ?_ (fun k => ?_) k
    · rw [p0, p0', h.psi2 0 0 le_rfl (by omega) (by norm_num)]
    · rw [pk, pk', pair_congr k fun m hm => h.psi2 1 m (by norm_num) hb hm]
  rw [e] at hp'
  have hz : Agree 0 b (cut α) fun _ _ => 0 := by
    intro ell m h1 h2 h3
    unfold cut
    split_ifs with q
    · rfl
    · exact hp ell m (by omega) h2 h3
  have hs : Agree 0 b (cut d'.sigma) (cut d.sigma) := by
    intro ell m h1 h2 h3
    unfold cut
    split_ifs with q
    · rfl
    · rw [h.sigma ell m (by omega) h2 h3]
      unfold ethGHP
      rw [hp ell m (by omega) h2 h3, mul_zero, mul_zero, sub_zero]
  have hsb : Agree 0 b (bar 2 (cut d'.sigma)) (bar 2 (cut d.sigma)) := by
    intro ell m h1 h2 h3
    unfold bar
    rw [hs ell (-m) h1 h2 (by rwa [abs_neg])]
  have hf : field 2 0 b d'.sigma = field 2 0 b d.sigma := by rw [cut_field b d'.sigma, cut_field b d.sigma, hs.field]
  have cb : ∀ f : Modes, field (-2) 0 b (bar 2 f) = fun θ φ => conj (field 2 0 b f θ φ) := by
    intro f
    funext θ φ
    rw [field_conj]
  have key : ∀ i, pair i (aspect mul d') = pair i (aspect mul d) +
      (T b (-1) (ethbar 0 (chi i)) 0 d.psi2 1 (eth 0 (trans (τ + (d'.t - d.t)) a)) + T b 0 (chi i) 0 d.psi2 0 (trans (τ + (d'.t - d.t)) a)) := by
    intro i
    have e := fun d : Abd => pair_T hmul i 2 (-2) d.sigma (bar 2 d.sigma) (by norm_num)
    norm_num at e
    unfold aspect
    have hze : Agree 0 b (eth 0 (cut α)) fun _ _ => 0 := by
      intro ell m h1 h2 h3
      unfold eth
      rw [hz ell m h1 h2 h3, mul_zero]
    rw [pair_add, pair_add, pair_psi1 hb hα h, e, e, T_cut, T_cut b _ _ d.sigma, T_congr (Agree.refl _) hs (hsb.eth (-2)), T_zero _ _ _ _ _ _ hz, T_zero _ _ _ _ _ _ hze]
    ring
  have hss : ∀ i : Fin 3, vector (mul 2 (-2) d'.sigma (bar 2 d'.sigma)) i.succ = vector (mul 2 (-2) d.sigma (bar 2 d.sigma)) i.succ := by
    intro i
    rw [vec_chi, vec_chi, pair_congr i fun m hm => ?_]
    rw [hmul 2 (-2) _ _ 1 m (by norm_num) hm, hmul 2 (-2) _ _ 1 m (by norm_num) hm, cb, cb, hf]
  refine ⟨_, _, _, _, p, bondi_eq mul d, bondi_eq mul d', (Verif.Props.Charges.angular_momentum_spec mul d).2, (Verif.Props.Charges.angular_momentum_spec mul d').2, hp1, hp', fun i => ?_, fun i => ?_⟩
  · have t := (trans_im (a := a) hb hd i (τ + (d'.t - d.t))).1
    rw [cross_p p d.psi2 pk i, ← t, key]
    simp only [Complex.add_im]
    ring
  · have t := (trans_im (a := a) hb hd i (τ + (d'.t - d.t))).2
    have k := congrArg Complex.re (key i)
    rw [Complex.add_re, t] at k
    rw [hss, vec_chi, vec_chi, vec_chi, p0, pk]
    change -((pair i (aspect mul d')).re / (4 * Real.pi) + _) = -((pair i (aspect mul d)).re / (4 * Real.pi) + _) + _ + _
    rw [k]
    have hpi : √(4 * Real.pi) ^ 2 = 4 * Real.pi := Real.sq_sqrt (by positivity)
    have hs0 : √(4 * Real.pi) ≠ 0 := by positivity
    generalize √(4 * Real.pi) = r at *
    rw [← hpi]
    field_simp
    ring

omit hb in
/-- C77: for data whose shear has no electric part, `CWWY_angular_momentum` is `bondi_angular_momentum`. -/
theorem cwwy_magnetic (hmul : IsProduct b mul) (hm : ∀ ell m, 2 ≤ ell → ell ≤ b → |m| ≤ ell → ethbarGHP 1 (ethbarGHP 2 d.sigma) ell m + ethGHP (-1) (ethGHP (-2) (bar 2 d.sigma)) ell m = 0) :
    cwwyAngularMomentum mul b d = bondiAngularMomentum mul d := by
  have hz : Agree 0 b (potential b d) fun _ _ => 0 := by
    intro ell m h1 h2 h3
    by_cases h : ell < 2
    · exact (potential_spec b d ell m h1 h2 h3).1 h
    · have hM : Verif.Spec.Superrest.IsMode ell m := abs_le.1 h3
      unfold potential modesOfRow
      rw [if_pos h2, Verif.Props.Superrest.Dinv_get _ _ _ _ hM h2]
      unfold rowOf
      rw [Verif.Lemmas.Superrest.sqrt_index ell m hM, show lmIndex ell m 0 - ell * (ell + 1) = m by unfold lmIndex; ring]
      beta_reduce
      rw [hm ell m (by omega) h2 h3, zero_mul]
  rw [cwwy_eq, bondi_eq]
  congr 2
  funext i
  have e := pair_T hmul i 0 0 (potential b d) (massAspect mul b d (.callable b)) (by norm_num)
  norm_num at e
  rw [e, T_swap, T_zero _ _ _ _ _ _ hz, mul_zero, add_zero]

end

/-! ## The transformation of the fields -/

/-- C77: the fields that `AsymptoticBondiData.transform` computes in one direction are those of the specification, for a supertranslation (no boost) of data with `ψ₃ = ψ₄ = 0`. -/
theorem transform_formulas (D : AbdTransform.Dir) (i : Nat) (u : ℝ) (hv : D.vr = 0) (he : D.ethVr = 0) (h3 : D.psi3 i = 0) (h4 : D.psi4 i = 0) :
    AbdTransform.fprime 1 D i u = [D.psi0 i + 4 * (D.ethAlphaNP / (√2 : ℝ)) * D.psi1 i + 6 * (D.ethAlphaNP / (√2 : ℝ)) ^ 2 * D.psi2 i,
      D.psi1 i + 3 * (D.ethAlphaNP / (√2 : ℝ)) * D.psi2 i, D.psi2 i, 0, 0, D.sigma i - D.ethEthAlphaNP / 2] := by
  unfold AbdTransform.fprime AbdTransform.ethUprime AbdTransform.ethkOverK AbdTransform.oneOverKCubed AbdTransform.oneOverK AbdTransform.ethAlpha AbdTransform.ethEthAlpha
    AbdTransform.hornerPsi0 AbdTransform.hornerPsi1 AbdTransform.hornerPsi2 AbdTransform.hornerPsi3 AbdTransform.hornerPsi4 AbdTransform.newSigma
  rw [hv, he, h3, h4]
  norm_num
  refine ⟨?_, ?_, ?_⟩ <;> ring

/-! ## An example -/

/-- The data in the supertranslated frame. -/
noncomputable def moved (b : Int) (α : Modes) (d : Abd) (t : ℝ) : Abd where
  t := t
  psi1 := fun _ m => solid fun θ φ => conj (Y 1 1 m (rotor θ φ)) * (psi1At b d (t + (field 0 0 b α θ φ).re) θ φ + 3 * field 1 0 b (ethGHP 0 α) θ φ * field 0 0 b d.psi2 θ φ)
  psi2 := d.psi2
  sigma := fun ell m => d.sigma ell m - ethGHP 1 (ethGHP 0 α) ell m
  sigmaDot := fun _ _ => 0

theorem moved_spec (b : Int) (α : Modes) (d : Abd) (t : ℝ) : Supertranslated b α d (moved b α d t) where
  news := fun _ _ => rfl
  sigma := fun _ _ _ _ _ => rfl
  psi2 := fun _ _ _ _ _ => rfl
  psi1 := fun _ _ => rfl

/-- A mass of 1 with a quadrupole. -/
noncomputable def quadrupole : Abd where
  t := 0
  psi1 := fun _ _ => 0
  psi2 := fun ell m => if ell = 0 then -((√(4 * Real.pi) : ℝ) : ℂ) else if ell = 2 then if m = 2 then Complex.I else if m = -2 then -Complex.I else 0 else 0
  sigma := fun _ _ => 0
  sigmaDot := fun _ _ => 0

/-- A supertranslation, with the translation `a` in the direction `x`. -/
noncomputable def shift (a : ℝ) : Modes := fun ell m => if ell = 2 then if m = 2 ∨ m = -2 then 1 else 0 else if ell = 1 then (a : ℂ) * chi 0 1 m else 0

theorem quadrupole_spec : Nonradiative 2 quadrupole where
  news := fun _ _ => rfl
  real := by
    intro ell m h1 h2 h3
    have z : ∀ m, ethGHP (-1) (ethGHP (-2) (bar 2 quadrupole.sigma)) ell m = 0 := by
      intro m
      unfold ethGHP bar quadrupole
      simp
    show (-1) ^ (0 + m).natAbs * conj (quadrupole.psi2 ell (-m) + ethGHP (-1) (ethGHP (-2) (bar 2 quadrupole.sigma)) ell (-m)) = quadrupole.psi2 ell m + ethGHP (-1) (ethGHP (-2) (bar 2 quadrupole.sigma)) ell m
    rw [z, z, add_zero, add_zero]
    have : ell = 0 ∨ ell = 1 ∨ ell = 2 := by omega
    unfold quadrupole
    rw [abs_le] at h3
    rcases this with rfl | rfl | rfl
    · obtain rfl : m = 0 := by omega
      simp
    · simp
    · have : m = -2 ∨ m = -1 ∨ m = 0 ∨ m = 1 ∨ m = 2 := by omega
      rcases this with rfl | rfl | rfl | rfl | rfl <;> norm_num

theorem shift_spec (a : ℝ) : IsReal 2 (shift a) 0 ![a, 0, 0] where
  real := by
    intro ell m h1 h2 h3
    have : ell = 0 ∨ ell = 1 ∨ ell = 2 := by omega
    unfold bar shift
    rw [abs_le] at h3
    rcases this with rfl | rfl | rfl
    · simp
    · obtain ⟨c1, c2, c3, -⟩ := Verif.Props.BoostFlux.chi_values
      have : m = -1 ∨ m = 0 ∨ m = 1 := by omega
      rcases this with rfl | rfl | rfl <;> norm_num [chi]
    · have : m = -2 ∨ m = -1 ∨ m = 0 ∨ m = 1 ∨ m = 2 := by omega
      rcases this with rfl | rfl | rfl | rfl | rfl <;> norm_num
  time := by simp [shift]
  space := by
    intro m _
    simp [shift, Fin.sum_univ_three]

/-- C77: the angular momentum of Bondi data changes with a proper supertranslation, that of Chen, Wang, Wang and Yau does not. -/
theorem bondi_not_invariant : ∃ (d d' : Abd) (α : Modes), Nonradiative 2 d ∧ IsReal 2 α 0 (fun _ => 0) ∧ Supertranslated 2 α d d' ∧
    (∃ J J' : Fin 3 → ℝ, bondiAngularMomentum (Verif.Props.Balance.prod 2) d = .ok (List.ofFn J) ∧ bondiAngularMomentum (Verif.Props.Balance.prod 2) d' = .ok (List.ofFn J') ∧ J' 2 = J 2 + 1 / Real.pi) ∧
    cwwyAngularMomentum (Verif.Props.Balance.prod 2) 2 d' = cwwyAngularMomentum (Verif.Props.Balance.prod 2) 2 d := by
  have hα := shift_spec 0
  have ez : ![(0 : ℝ), 0, 0] = fun _ => 0 := by
    funext i
    fin_cases i <;> rfl
  rw [ez] at hα
  have cz : ∀ (p : Fin 3 → ℝ) i, cross (fun _ => 0) p i = 0 := by
    intro p i
    unfold cross
    fin_cases i <;> simp
  refine ⟨quadrupole, moved 2 (shift 0) quadrupole 0, shift 0, quadrupole_spec, hα, moved_spec _ _ _ _, ?_, ?_⟩
  · obtain ⟨J, J', p, h1, h2, -, h3⟩ := bondi_supertranslation (by norm_num) (Verif.Props.Balance.prod_product 2) quadrupole_spec hα (moved_spec _ _ _ 0) 0
    refine ⟨J, J', h1, h2, ?_⟩
    rw [h3 2, cz]
    have : Verif.Spec.AngMom.inner 2 2 (re quadrupole.psi2) (Verif.Spec.AngMom.L 2 (shift 0)) = -4 * Complex.I := by
      unfold Verif.Spec.AngMom.inner
      rw [Finset.Icc_self, Finset.sum_singleton, show Finset.Icc (-2 : Int) 2 = {-2, -1, 0, 1, 2} by decide]
      have c2 : conj (2 : ℂ) = 2 := Complex.conj_ofNat 2
      simp [Verif.Spec.AngMom.L, shift, re, bar, quadrupole, c2]
      ring
    rw [this]
    have hpi := Real.pi_ne_zero
    simp
    field_simp
    ring
  · obtain ⟨J, J', p, h1, h2, -, -, h3⟩ := cwwy_supertranslation (by norm_num) (Verif.Props.Balance.prod_product 2) quadrupole_spec hα (moved_spec _ _ _ 0) 0
    rw [h1, h2]
    congr 2
    funext i
    rw [h3 i, cz, add_zero]

-- the hypotheses of `cwwy_supertranslation`, with a translation and a proper supertranslation
example : ∃ J J' : Fin 3 → ℝ, cwwyAngularMomentum (Verif.Props.Balance.prod 2) 2 quadrupole = .ok (List.ofFn J) ∧
    cwwyAngularMomentum (Verif.Props.Balance.prod 2) 2 (moved 2 (shift 3) quadrupole 5) = .ok (List.ofFn J') := by
  obtain ⟨J, J', p, h1, h2, -⟩ := cwwy_supertranslation (by norm_num) (Verif.Props.Balance.prod_product 2) quadrupole_spec (shift_spec 3) (moved_spec _ _ _ 5) 0
  exact ⟨J, J', h1, h2⟩

end Verif.Props.Cwwy
