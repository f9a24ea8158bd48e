import Verif.Model.Bms
import Verif.Spec.Bms
import Verif.Props.AbdCompose
import Mathlib.Tactic.LinearCombination
import Mathlib.Tactic.FieldSimp
import Mathlib.Tactic.FinCases
import Mathlib.Tactic.Linarith
import Mathlib.Tactic.Module
import Mathlib.LinearAlgebra.Matrix.Determinant.Basic

/-!
# Spin matrices

The matrices of `scri/bms_transformations.py` in closed form, and how they act on Minkowski space.
-/

namespace Verif.Lemmas.Bms

open Verif Verif.Bms Verif.AbdTransform Verif.Spec.Bms Verif.Props.AbdTransform Matrix

/-- The matrix of a rotation. -/
def Mq (q : Quaternion ℝ) : Mat := !![⟨q.re, q.imK⟩, ⟨-q.imJ, q.imI⟩; ⟨q.imJ, q.imI⟩, ⟨q.re, -q.imK⟩]

/-- A boost, by `γ` and the constant in front. -/
def Bg (g c : ℝ) (v : Vec) : Mat :=
  !![⟨c * (g + 1 - g * v 2), 0⟩, ⟨-(c * g * v 0), -(c * g * v 1)⟩; ⟨-(c * g * v 0), c * g * v 1⟩, ⟨c * (g + 1 + g * v 2), 0⟩]

/-- The matrix of a boost. -/
noncomputable def Bm (v : Vec) : Mat := Bg (gam v) (√(2 * (gam v + 1)))⁻¹ v

/-- Events as hermitian matrices. -/
def Hm (X : Four) : Mat := !![⟨X.1 + X.2 2, 0⟩, ⟨X.2 0, X.2 1⟩; ⟨X.2 0, -X.2 1⟩, ⟨X.1 - X.2 2, 0⟩]

theorem mat_ext {A B : Mat} (h00 : A 0 0 = B 0 0) (h01 : A 0 1 = B 0 1) (h10 : A 1 0 = B 1 0) (h11 : A 1 1 = B 1 1) : A = B := by
  ext i j
  fin_cases i <;> fin_cases j <;> assumption

theorem Mq_mul (p q : Quaternion ℝ) : Mq (p * q) = Mq p * Mq q := by
  apply mat_ext <;> (apply Complex.ext <;> simp [Mq, Matrix.mul_apply, Fin.sum_univ_two] <;> ring)

theorem Mq_one : Mq 1 = 1 := by
  apply mat_ext <;> (apply Complex.ext <;> simp [Mq] <;> rfl)

theorem Mq_star (q : Quaternion ℝ) : Mq (star q) = (Mq q)ᴴ := by
  apply mat_ext <;> (apply Complex.ext <;> simp [Mq])

theorem Mq_neg (q : Quaternion ℝ) : Mq (-q) = -Mq q := by
  apply mat_ext <;> (apply Complex.ext <;> simp [Mq])

theorem Mq_inj {p q : Quaternion ℝ} (h : Mq p = Mq q) : p = q := by
  have h0 := congrFun (congrFun h 0) 0
  have h1 := congrFun (congrFun h 1) 0
  simp [Mq, Complex.ext_iff] at h0 h1
  exact Quaternion.ext _ _ h0.1 h1.2 h1.1 h0.2

theorem normSq_components (q : Quaternion ℝ) : Quaternion.normSq q = q.re ^ 2 + q.imI ^ 2 + q.imJ ^ 2 + q.imK ^ 2 := Quaternion.normSq_def' q

theorem self_mul_star (q : Quaternion ℝ) (hq : Quaternion.normSq q = 1) : q * star q = 1 := by
  rw [Quaternion.self_mul_star, hq]
  simp

theorem star_mul_self (q : Quaternion ℝ) (hq : Quaternion.normSq q = 1) : star q * q = 1 := by
  rw [Quaternion.star_mul_self, hq]
  simp

theorem gam_pos (v : Vec) (hv : dot v v < 1) : 0 < gam v := by
  unfold gam
  have : 0 < √(1 - dot v v) := Real.sqrt_pos.mpr (by linarith)
  positivity

theorem dot_self (v : Vec) : dot v v = v 0 ^ 2 + v 1 ^ 2 + v 2 ^ 2 := by
  simp [dot, Fin.sum_univ_three]
  ring

theorem dot_eq (v w : Vec) : dot v w = v 0 * w 0 + v 1 * w 1 + v 2 * w 2 := by
  simp [dot, Fin.sum_univ_three]

theorem dot_nonneg (v : Vec) : 0 ≤ dot v v := by
  rw [dot_self]
  positivity

theorem gam_sq (v : Vec) (hv : dot v v < 1) : gam v ^ 2 * (1 - dot v v) = 1 := by
  unfold gam
  rw [div_pow, Real.sq_sqrt (by linarith)]
  field_simp
  exact div_self (by linarith)

theorem one_le_gam (v : Vec) (hv : dot v v < 1) : 1 ≤ gam v := by
  have h := gam_sq v hv
  have h0 := dot_nonneg v
  have hp := gam_pos v hv
  by_contra hlt
  push Not at hlt
  nlinarith [mul_pos hp hp]

theorem gam_neg (v : Vec) : gam (-v) = gam v := by
  unfold gam
  simp [dot]

theorem dot_neg_self (v : Vec) : dot (-v) (-v) = dot v v := by simp [dot]

theorem Bm_herm (v : Vec) : (Bm v)ᴴ = Bm v := by
  apply mat_ext <;> (apply Complex.ext <;> simp [Bm, Bg])

theorem root_sq (g : ℝ) (hg : 0 < g) : (√(2 * (g + 1)))⁻¹ ^ 2 * (2 * (g + 1)) = 1 := by
  rw [inv_pow, Real.sq_sqrt (by linarith), inv_mul_cancel₀ (by linarith)]

theorem Bm_det (v : Vec) (hv : dot v v < 1) : (Bm v).det = 1 := by
  have h := gam_sq v hv
  have hp := gam_pos v hv
  rw [dot_self] at h
  have hc := root_sq (gam v) hp
  rw [Matrix.det_fin_two]
  unfold Bm
  generalize gam v = g at *
  generalize (√(2 * (g + 1)))⁻¹ = c at *
  unfold Bg
  apply Complex.ext <;> simp
  · linear_combination hc + c ^ 2 * h
  · ring

theorem Bm_neg_mul (v : Vec) (hv : dot v v < 1) : Bm (-v) * Bm v = 1 := by
  have h := gam_sq v hv
  have hp := gam_pos v hv
  rw [dot_self] at h
  have hc := root_sq (gam v) hp
  unfold Bm
  rw [gam_neg]
  generalize gam v = g at *
  generalize (√(2 * (g + 1)))⁻¹ = c at *
  unfold Bg
  apply mat_ext <;> (apply Complex.ext <;> simp [Matrix.mul_apply, Fin.sum_univ_two])
  all_goals first | ring1 | linear_combination hc + c ^ 2 * h

theorem Bm_mul_neg (v : Vec) (hv : dot v v < 1) : Bm v * Bm (-v) = 1 := by
  have := Bm_neg_mul (-v) (by rwa [dot_neg_self])
  rwa [neg_neg] at this

theorem Hm_inj {X Y : Four} (h : Hm X = Hm Y) : X = Y := by
  have h0 := congrFun (congrFun h 0) 0
  have h1 := congrFun (congrFun h 0) 1
  have h2 := congrFun (congrFun h 1) 1
  simp [Hm, Complex.ext_iff] at h0 h1 h2
  refine Prod.ext (by linarith) (funext fun i => ?_)
  fin_cases i
  · exact h1.1
  · exact h1.2
  · show X.2 2 = Y.2 2
    linarith

theorem rotateVec_0 (q : Quaternion ℝ) (x : Vec) : rotateVec q x 0 =
    (q.re ^ 2 + q.imI ^ 2 - q.imJ ^ 2 - q.imK ^ 2) * x 0 + 2 * (q.imI * q.imJ - q.re * q.imK) * x 1 + 2 * (q.imI * q.imK + q.re * q.imJ) * x 2 := by
  have e0 : (vecQuat x).re = 0 := rfl
  have e1 : (vecQuat x).imI = x 0 := rfl
  have e2 : (vecQuat x).imJ = x 1 := rfl
  have e3 : (vecQuat x).imK = x 2 := rfl
  simp [rotateVec, e0, e1, e2, e3]
  ring

theorem rotateVec_1 (q : Quaternion ℝ) (x : Vec) : rotateVec q x 1 =
    2 * (q.imI * q.imJ + q.re * q.imK) * x 0 + (q.re ^ 2 - q.imI ^ 2 + q.imJ ^ 2 - q.imK ^ 2) * x 1 + 2 * (q.imJ * q.imK - q.re * q.imI) * x 2 := by
  have e0 : (vecQuat x).re = 0 := rfl
  have e1 : (vecQuat x).imI = x 0 := rfl
  have e2 : (vecQuat x).imJ = x 1 := rfl
  have e3 : (vecQuat x).imK = x 2 := rfl
  simp [rotateVec, e0, e1, e2, e3]
  ring

theorem rotateVec_2 (q : Quaternion ℝ) (x : Vec) : rotateVec q x 2 =
    2 * (q.imI * q.imK - q.re * q.imJ) * x 0 + 2 * (q.imJ * q.imK + q.re * q.imI) * x 1 + (q.re ^ 2 - q.imI ^ 2 - q.imJ ^ 2 + q.imK ^ 2) * x 2 := by
  have e0 : (vecQuat x).re = 0 := rfl
  have e1 : (vecQuat x).imI = x 0 := rfl
  have e2 : (vecQuat x).imJ = x 1 := rfl
  have e3 : (vecQuat x).imK = x 2 := rfl
  simp [rotateVec, e0, e1, e2, e3]
  ring

theorem Hm_rot (q : Quaternion ℝ) (hq : Quaternion.normSq q = 1) (X : Four) : Hm (rot q X) = Mq q * Hm X * Mq (star q) := by
  rw [normSq_components] at hq
  obtain ⟨t, x⟩ := X
  apply mat_ext <;> (apply Complex.ext <;> simp [Mq, Hm, rot, rotateVec_0, rotateVec_1, rotateVec_2, Matrix.mul_apply, Fin.sum_univ_two])
  all_goals first | ring1 | linear_combination (-t) * hq

theorem Hm_boost (v : Vec) (hv : dot v v < 1) (X : Four) : Hm (boost v X) = Bm (-v) * Hm X * Bm (-v) := by
  have h := gam_sq v hv
  have hp := gam_pos v hv
  rw [dot_self] at h
  have hc := root_sq (gam v) hp
  obtain ⟨t, x⟩ := X
  unfold Bm boost
  rw [gam_neg]
  simp only [dot_eq]
  have hd : gam v ^ 2 / (gam v + 1) = 2 * (√(2 * (gam v + 1)))⁻¹ ^ 2 * gam v ^ 2 := by
    rw [div_eq_iff (by linarith)]
    linear_combination -(gam v ^ 2) * hc
  rw [hd]
  generalize gam v = g at *
  generalize (√(2 * (g + 1)))⁻¹ = c at *
  unfold Bg
  apply mat_ext <;> (apply Complex.ext <;> simp [Hm, Matrix.mul_apply, Fin.sum_univ_two])
  · linear_combination (-(g * (t + (v 0 * x 0 + v 1 * x 1 + v 2 * x 2))) - (x 2 + g * t * v 2)) * hc + (c ^ 2 * t - c ^ 2 * x 2) * h
  · ring1
  · linear_combination -(x 0 + g * t * v 0) * hc - c ^ 2 * x 0 * h
  · linear_combination -(x 1 + g * t * v 1) * hc - c ^ 2 * x 1 * h
  · linear_combination -(x 0 + g * t * v 0) * hc - c ^ 2 * x 0 * h
  · linear_combination (x 1 + g * t * v 1) * hc + c ^ 2 * x 1 * h
  · linear_combination (-(g * (t + (v 0 * x 0 + v 1 * x 1 + v 2 * x 2))) + (x 2 + g * t * v 2)) * hc + (c ^ 2 * t + c ^ 2 * x 2) * h
  · ring1

/-! ## From parameters to matrices -/

theorem mkQ_re (w : ℝ) (n : Vec) : (mkQ w n).re = w := rfl
theorem mkQ_imI (w : ℝ) (n : Vec) : (mkQ w n).imI = n 0 := rfl
theorem mkQ_imJ (w : ℝ) (n : Vec) : (mkQ w n).imJ = n 1 := rfl
theorem mkQ_imK (w : ℝ) (n : Vec) : (mkQ w n).imK = n 2 := rfl

theorem fourvec_real (a : ℝ) (n : Vec) : fourvecToSpin ((2 * a : ℝ) : ℂ) n = Mq (mkQ (Real.cos a) fun i => n i * Real.sin a) := by
  have h : ((2 * a : ℝ) : ℂ) / 2 = (a : ℂ) := by
    push_cast
    ring
  unfold fourvecToSpin
  simp only [h, ← Complex.ofReal_cos, ← Complex.ofReal_sin]
  generalize Real.cos a = c
  generalize Real.sin a = s
  unfold Mq
  simp only [mkQ_re, mkQ_imI, mkQ_imJ, mkQ_imK]
  apply mat_ext <;> (apply Complex.ext <;> simp)

theorem fourvec_imag (a : ℝ) (n : Vec) : fourvecToSpin (Complex.I * ((2 * a : ℝ) : ℂ)) n =
    !![⟨Real.cosh a - n 2 * Real.sinh a, 0⟩, ⟨-(n 0 * Real.sinh a), -(n 1 * Real.sinh a)⟩; ⟨-(n 0 * Real.sinh a), n 1 * Real.sinh a⟩, ⟨Real.cosh a + n 2 * Real.sinh a, 0⟩] := by
  have h : Complex.I * ((2 * a : ℝ) : ℂ) / 2 = (a : ℂ) * Complex.I := by
    push_cast
    ring
  unfold fourvecToSpin
  simp only [h, Complex.cos_mul_I, Complex.sin_mul_I, ← Complex.ofReal_cosh, ← Complex.ofReal_sinh]
  generalize Real.cosh a = c
  generalize Real.sinh a = s
  apply mat_ext <;> (apply Complex.ext <;> simp [sub_eq_add_neg])

theorem vabs_sq (v : Vec) : vabs v ^ 2 = dot v v := by
  rw [vabs, Real.sq_sqrt (by positivity), dot_self]

theorem vabs_nonneg (v : Vec) : 0 ≤ vabs v := Real.sqrt_nonneg _

theorem vabs_eq_zero {v : Vec} (h : vabs v = 0) : v = 0 := by
  have h2 := vabs_sq v
  rw [h, dot_self] at h2
  have h0 : v 0 = 0 := by nlinarith [sq_nonneg (v 0), sq_nonneg (v 1), sq_nonneg (v 2)]
  have h1 : v 1 = 0 := by nlinarith [sq_nonneg (v 0), sq_nonneg (v 1), sq_nonneg (v 2)]
  have h3 : v 2 = 0 := by nlinarith [sq_nonneg (v 0), sq_nonneg (v 1), sq_nonneg (v 2)]
  funext i
  fin_cases i
  · exact h0
  · exact h1
  · exact h3

theorem vabs_zero : vabs 0 = 0 := by simp [vabs]

theorem vabs_lt_one (v : Vec) (hv : dot v v < 1) : vabs v < 1 := by
  rw [← vabs_sq] at hv
  nlinarith [vabs_nonneg v]

theorem quat_eq (q : Quaternion ℝ) : q = mkQ q.re (vecPart q) := rfl

theorem rotation_matrix (q : Quaternion ℝ) (hq : Rotor q) : ∃ psi n, rotationAxis q = .ok (psi, n) ∧ fourvecToSpin ((psi : ℝ) : ℂ) n = Mq q := by
  obtain ⟨hq, hne⟩ := hq
  have hs : q.re ^ 2 + vabs (vecPart q) ^ 2 = 1 := by
    rw [vabs_sq, dot_self]
    rw [normSq_components] at hq
    simp [vecPart]
    linarith
  have hnorm : ‖(⟨q.re, vabs (vecPart q)⟩ : ℂ)‖ = 1 := by
    rw [Complex.norm_eq_sqrt_sq_add_sq]
    simp [hs]
  have hz : (⟨q.re, vabs (vecPart q)⟩ : ℂ) ≠ 0 := by
    intro h
    rw [h] at hnorm
    simp at hnorm
  have hcos := Complex.cos_arg hz
  have hsin := Complex.sin_arg (⟨q.re, vabs (vecPart q)⟩ : ℂ)
  rw [hnorm] at hcos hsin
  simp only [div_one] at hcos hsin
  unfold rotationAxis
  simp only
  set a := Complex.arg ⟨q.re, vabs (vecPart q)⟩ with ha
  by_cases h0 : 2 * a = 0
  · rw [if_pos h0]
    refine ⟨_, _, rfl, ?_⟩
    rw [fourvec_real]
    have ha0 : a = 0 := by linarith
    rw [ha0, Real.cos_zero] at hcos
    rw [ha0, Real.sin_zero] at hsin
    rw [ha0]
    have hv := vabs_eq_zero hsin.symm
    conv_rhs => rw [quat_eq q, hv, ← hcos]
    simp
    rfl
  · rw [if_neg h0]
    by_cases hv : vabs (vecPart q) = 0
    · exfalso
      rw [hv] at hs
      have hw : q.re = -1 := by
        have h1 : (q.re - 1) * (q.re + 1) = 0 := by linarith
        rcases mul_eq_zero.mp h1 with h1 | h1
        · exfalso
          apply h0
          have : q.re = 1 := by linarith
          rw [ha, hv, this]
          have : (⟨1, 0⟩ : ℂ) = 1 := rfl
          rw [this, Complex.arg_one, mul_zero]
        · linarith
      apply hne
      rw [quat_eq q, vabs_eq_zero hv, hw]
      exact Quaternion.ext _ _ rfl neg_zero.symm neg_zero.symm neg_zero.symm
    · rw [if_neg hv]
      refine ⟨_, _, rfl, ?_⟩
      rw [fourvec_real, hcos, hsin]
      conv_rhs => rw [quat_eq q]
      congr 2
      funext i
      exact div_mul_cancel₀ _ hv

theorem minus_one_rotation : rotationAxis (-1) = .error .other := by
  have hv : vabs (vecPart (-1)) = 0 := by
    have : vecPart (-1) = 0 := by
      funext i
      fin_cases i <;> exact neg_zero
    rw [this, vabs_zero]
  unfold rotationAxis
  simp only [hv]
  have hr : (⟨(-1 : Quaternion ℝ).re, 0⟩ : ℂ) = -1 := by
    apply Complex.ext
    · rfl
    · simp
  rw [hr, Complex.arg_neg_one, if_neg (by simp [Real.pi_ne_zero])]
  rfl

theorem half_rapidity (g a : ℝ) (h : Real.cosh (2 * a) = g) :
    Real.cosh a = (√(2 * (g + 1)))⁻¹ * (g + 1) ∧ Real.sinh a = (√(2 * (g + 1)))⁻¹ * Real.sinh (2 * a) := by
  have h1 : (√(2 * (g + 1))) = 2 * Real.cosh a := by
    rw [← h, Real.cosh_two_mul, Real.sinh_sq]
    have : 2 * (Real.cosh a ^ 2 + (Real.cosh a ^ 2 - 1) + 1) = (2 * Real.cosh a) ^ 2 := by ring
    rw [this, Real.sqrt_sq (by linarith [Real.cosh_pos a])]
  have hc := Real.cosh_pos a
  rw [h1]
  constructor
  · rw [← h, Real.cosh_two_mul, Real.sinh_sq]
    field_simp
    ring
  · rw [Real.sinh_two_mul]
    field_simp

theorem boost_matrix (v : Vec) (hv : dot v v < 1) : fourvecToSpin (Complex.I * (((boostAxis v).1 : ℝ) : ℂ)) (boostAxis v).2 = Bm v := by
  have h1 := vabs_lt_one v hv
  have h0 := vabs_nonneg v
  have hg : Real.cosh (Real.artanh (vabs v)) = gam v := by
    rw [Real.cosh_artanh ⟨by linarith, h1⟩, gam, ← vabs_sq]
  have hsh : Real.sinh (Real.artanh (vabs v)) = gam v * vabs v := by
    rw [Real.sinh_artanh ⟨by linarith, h1⟩, gam, ← vabs_sq]
    ring
  have hnn : 0 ≤ Real.artanh (vabs v) := Real.artanh_nonneg h0
  have e2 : Real.artanh (vabs v) = 2 * (Real.artanh (vabs v) / 2) := by ring
  obtain ⟨hc, hs⟩ := half_rapidity (gam v) (Real.artanh (vabs v) / 2) (by rw [← e2, hg])
  rw [← e2, hsh] at hs
  unfold boostAxis
  simp only
  by_cases hz : Real.artanh (vabs v) = 0
  · rw [if_pos hz]
    simp only
    have hv0 : vabs v = 0 := by
      rw [hz, Real.sinh_zero] at hsh
      rcases mul_eq_zero.mp hsh.symm with h | h
      · exact absurd h (gam_pos v hv).ne'
      · exact h
    rw [e2, fourvec_imag, hc, hs, hv0]
    rw [vabs_eq_zero hv0]
    unfold Bm
    generalize (√(2 * (gam 0 + 1)))⁻¹ = c
    unfold Bg
    apply mat_ext <;> (apply Complex.ext <;> simp)
  · rw [if_neg hz]
    simp only
    have hv0 : vabs v ≠ 0 := by
      intro h
      rw [h] at hz
      simp at hz
    rw [e2, fourvec_imag, hc, hs]
    unfold Bm
    generalize (√(2 * (gam v + 1)))⁻¹ = c
    unfold Bg
    apply mat_ext <;> (apply Complex.ext <;> simp)
    all_goals field_simp

/-- The order in which the two parts of a Lorentz transformation are listed. -/
def RotFirst (o : Order) : Prop := o.idxOf .frame_rotation < o.idxOf .boost_velocity

open Classical in
theorem lorentzToSpin_eq (L : Lorentz) (hq : Rotor L.q) (hv : dot L.v L.v < 1) :
    lorentzToSpin L = .ok (if RotFirst L.order then Bm L.v * Mq L.q else Mq L.q * Bm L.v) := by
  obtain ⟨psi, n, h1, h2⟩ := rotation_matrix L.q hq
  unfold lorentzToSpin
  rw [h1, ok_bind]
  have hb := boost_matrix L.v hv
  rcases hB : boostAxis L.v with ⟨chi, m⟩
  rw [hB] at hb
  simp only at hb ⊢
  rw [h2, hb]
  unfold RotFirst
  split_ifs <;> rfl

/-! ## From matrices to parameters -/

theorem vabs_smul (k : ℝ) (hk : 0 ≤ k) (v : Vec) : vabs (fun i => k * v i) = k * vabs v := by
  unfold vabs
  have : (k * v 0) ^ 2 + (k * v 1) ^ 2 + (k * v 2) ^ 2 = k ^ 2 * (v 0 ^ 2 + v 1 ^ 2 + v 2 ^ 2) := by ring
  rw [this, Real.sqrt_mul (sq_nonneg k), Real.sqrt_sq hk]

theorem nvecRe_smul (k c : ℝ) (q : Quaternion ℝ) (h : logm (Mq q) = (k : ℂ) • (Mq q - (c : ℂ) • (1 : Mat))) : nvecRe (Mq q) = fun i => k * vecPart q i := by
  have e00 : Mq q 0 0 = ⟨q.re, q.imK⟩ := rfl
  have e01 : Mq q 0 1 = ⟨-q.imJ, q.imI⟩ := rfl
  have e10 : Mq q 1 0 = ⟨q.imJ, q.imI⟩ := rfl
  have e11 : Mq q 1 1 = ⟨q.re, -q.imK⟩ := rfl
  funext i
  fin_cases i <;> simp [nvecRe, nvec, h, e00, e01, e10, e11, vecPart] <;> ring

theorem nvecIm_smul (k c g c0 : ℝ) (v : Vec) (h : logm (Bg g c0 v) = (k : ℂ) • (Bg g c0 v - (c : ℂ) • (1 : Mat))) : nvecIm (Bg g c0 v) = fun i => (k * (c0 * g)) * v i := by
  have e00 : Bg g c0 v 0 0 = ⟨c0 * (g + 1 - g * v 2), 0⟩ := rfl
  have e01 : Bg g c0 v 0 1 = ⟨-(c0 * g * v 0), -(c0 * g * v 1)⟩ := rfl
  have e10 : Bg g c0 v 1 0 = ⟨-(c0 * g * v 0), c0 * g * v 1⟩ := rfl
  have e11 : Bg g c0 v 1 1 = ⟨c0 * (g + 1 + g * v 2), 0⟩ := rfl
  funext i
  fin_cases i <;> simp [nvecIm, nvec, h, e00, e01, e10, e11] <;> ring

theorem mkQ_one : mkQ 1 0 = 1 := rfl

theorem pureRotation_zero (A : Mat) (h : nvecRe A = 0) : pureRotation A = 1 := by
  unfold pureRotation
  rw [h, vabs_zero]
  simp
  rfl

theorem pureRotation_Mq (q : Quaternion ℝ) (hq : Rotor q) : pureRotation (Mq q) = q := by
  obtain ⟨hq, hne⟩ := hq
  have hs : q.re ^ 2 + vabs (vecPart q) ^ 2 = 1 := by
    rw [vabs_sq, dot_self]
    rw [normSq_components] at hq
    simp [vecPart]
    linarith
  have hnn := vabs_nonneg (vecPart q)
  have htr : ((Mq q 0 0 + Mq q 1 1) / 2).re = q.re := by simp [Mq]
  have hre1 : q.re ≠ -1 := by
    intro h
    apply hne
    rw [h] at hs
    have hv : vabs (vecPart q) = 0 := by nlinarith
    rw [quat_eq q, vabs_eq_zero hv, h]
    exact Quaternion.ext _ _ rfl neg_zero.symm neg_zero.symm neg_zero.symm
  have hge : -1 ≤ q.re := by nlinarith
  have hle : q.re ≤ 1 := by nlinarith
  rcases hle.lt_or_eq with hlt | heq
  · have hl : logm (Mq q) = ((Real.arccos q.re / √(1 - q.re ^ 2) : ℝ) : ℂ) • (Mq q - (q.re : ℂ) • (1 : Mat)) := by
      unfold logm
      simp only [htr]
      rw [if_neg hre1, if_pos hlt]
    have hroot : √(1 - q.re ^ 2) = vabs (vecPart q) := by
      have : 1 - q.re ^ 2 = vabs (vecPart q) ^ 2 := by linarith
      rw [this, Real.sqrt_sq hnn]
    rw [hroot] at hl
    have hpos : 0 < vabs (vecPart q) := by
      rcases hnn.lt_or_eq with h | h
      · exact h
      · rw [← h] at hs
        have : (q.re - 1) * (q.re + 1) = 0 := by linarith
        rcases mul_eq_zero.mp this with h1 | h1
        · linarith
        · exact absurd (by linarith) hre1
    have hn := nvecRe_smul _ _ q hl
    have ha : 0 < Real.arccos q.re := Real.arccos_pos.mpr hlt
    have hva : vabs (nvecRe (Mq q)) = Real.arccos q.re := by
      rw [hn, vabs_smul _ (by positivity)]
      field_simp
    unfold pureRotation
    simp only [hva]
    have e : 2 * Real.arccos q.re / 2 = Real.arccos q.re := by ring
    rw [e, Real.cos_arccos hge hle, Real.sin_arccos, hroot]
    conv_rhs => rw [quat_eq q]
    congr 1
    funext i
    unfold hat
    rw [hva, if_neg (by linarith), hn]
    field_simp
  · have hv : vabs (vecPart q) = 0 := by
      rw [heq] at hs
      nlinarith
    have hq1 : q = 1 := by
      rw [quat_eq q, vabs_eq_zero hv, heq]
      exact mkQ_one
    have hl : logm (Mq q) = 0 := by
      unfold logm
      simp only [htr]
      rw [if_neg hre1, if_neg (by linarith), if_pos heq, hq1, Mq_one, sub_self]
    rw [pureRotation_zero, hq1]
    funext i
    fin_cases i <;> simp [nvecRe, nvec, hl]

theorem pureRotation_minus_one : pureRotation (-1) = 1 := by
  apply pureRotation_zero
  have hl : logm (-1) = (Complex.I * Real.pi) • (1 : Mat) := by
    unfold logm
    simp only
    rw [if_pos (by simp)]
  funext i
  fin_cases i <;> simp [nvecRe, nvec, hl]

theorem pureBoost_zero (A : Mat) (h : nvecIm A = 0) : pureBoost A = 0 := by
  unfold pureBoost
  rw [h, vabs_zero]
  funext i
  simp

theorem pureBoost_Bm (v : Vec) (hv : dot v v < 1) : pureBoost (Bm v) = v := by
  have h1 := vabs_lt_one v hv
  have h0 := vabs_nonneg v
  have hg : Real.cosh (Real.artanh (vabs v)) = gam v := by
    rw [Real.cosh_artanh ⟨by linarith, h1⟩, gam, ← vabs_sq]
  have hsh : Real.sinh (Real.artanh (vabs v)) = gam v * vabs v := by
    rw [Real.sinh_artanh ⟨by linarith, h1⟩, gam, ← vabs_sq]
    ring
  have hgp := gam_pos v hv
  obtain ⟨a, ha⟩ : ∃ a, a = Real.artanh (vabs v) / 2 := ⟨_, rfl⟩
  have e2 : Real.artanh (vabs v) = 2 * a := by linarith
  have hann : 0 ≤ a := by
    have : 0 ≤ Real.artanh (vabs v) := Real.artanh_nonneg h0
    linarith
  obtain ⟨hc, hs⟩ := half_rapidity (gam v) a (by rw [← e2, hg])
  rw [← e2, hsh] at hs
  have htanh : Real.tanh (2 * a) = vabs v := by rw [← e2, Real.tanh_artanh ⟨by linarith, h1⟩]
  have htr : ((Bm v 0 0 + Bm v 1 1) / 2).re = Real.cosh a := by
    rw [hc]
    unfold Bm
    generalize (√(2 * (gam v + 1)))⁻¹ = c
    simp [Bg]
    ring
  rcases hann.lt_or_eq with hpos | hz
  · have hca : 1 < Real.cosh a := Real.one_lt_cosh.mpr hpos.ne'
    have hsa : 0 < Real.sinh a := Real.sinh_pos_iff.mpr hpos
    have hroot : √(Real.cosh a ^ 2 - 1) = Real.sinh a := by
      rw [Real.cosh_sq, add_sub_cancel_right, Real.sqrt_sq hsa.le]
    have hl : logm (Bm v) = ((a / Real.sinh a : ℝ) : ℂ) • (Bm v - (Real.cosh a : ℂ) • (1 : Mat)) := by
      unfold logm
      simp only [htr]
      rw [if_neg (by linarith), if_neg (by linarith), if_neg (by linarith), hroot, Real.arsinh_sinh]
    have hn := nvecIm_smul (a / Real.sinh a) (Real.cosh a) (gam v) _ v hl
    have hvp : 0 < vabs v := by
      rcases h0.lt_or_eq with h | h
      · exact h
      · rw [← h, mul_zero, mul_zero] at hs
        linarith
    have hva : vabs (nvecIm (Bm v)) = a := by
      have := hn
      unfold Bm
      rw [this, vabs_smul _ (by positivity)]
      rw [mul_assoc, mul_assoc, ← hs]
      field_simp
    funext i
    unfold pureBoost
    rw [hva, htanh]
    unfold hat
    rw [hva, if_neg (by linarith)]
    have hni : nvecIm (Bm v) i = a / Real.sinh a * ((√(2 * (gam v + 1)))⁻¹ * gam v) * v i := congrFun hn i
    rw [hni, mul_div_assoc']
    rw [div_eq_iff hpos.ne']
    have : vabs v * (a / Real.sinh a * ((√(2 * (gam v + 1)))⁻¹ * gam v) * v i) = a / Real.sinh a * ((√(2 * (gam v + 1)))⁻¹ * (gam v * vabs v)) * v i := by ring
    rw [this, ← hs]
    field_simp
  · have hv0 : vabs v = 0 := by
      rw [← htanh, ← hz]
      simp
    have hv1 := vabs_eq_zero hv0
    have hB : Bm v = 1 := by
      rw [← hz, Real.cosh_zero] at hc
      unfold Bm Bg
      apply mat_ext <;> (apply Complex.ext <;> simp [hv1])
      all_goals
        rw [hv1] at hc
        simp at hc
        linarith
    have hl : logm (Bm v) = 0 := by
      unfold logm
      simp only [htr]
      rw [if_neg (by rw [← hz, Real.cosh_zero]; norm_num), if_neg (by rw [← hz, Real.cosh_zero]; norm_num), if_pos (by rw [← hz, Real.cosh_zero]), hB, sub_self]
    rw [pureBoost_zero, hv1]
    funext i
    fin_cases i <;> simp [nvecIm, nvec, hl]

/-- A unitary matrix with determinant 1 is the matrix of a unit quaternion. -/
theorem unitary_form (U : Mat) (hU : U * Uᴴ = 1) (hd : U.det = 1) : ∃ q, Quaternion.normSq q = 1 ∧ U = Mq q := by
  have h2 : U⁻¹ = Uᴴ := Matrix.inv_eq_right_inv hU
  have h3 : U⁻¹ = U.adjugate := by
    rw [Matrix.inv_def, hd]
    simp
  rw [h3] at h2
  have e0 := congrFun (congrFun h2 0) 0
  have e1 := congrFun (congrFun h2 0) 1
  rw [Matrix.adjugate_fin_two] at e0 e1
  simp [Complex.ext_iff] at e0 e1
  rw [Matrix.det_fin_two] at hd
  have hdr := congrArg Complex.re hd
  simp at hdr
  refine ⟨mkQ (U 0 0).re ![(U 1 0).im, (U 1 0).re, (U 0 0).im], ?_, ?_⟩
  · rw [normSq_components]
    simp only [mkQ_re, mkQ_imI, mkQ_imJ, mkQ_imK]
    simp
    rw [e0.1, e0.2] at hdr
    rw [e1.2, ← e1.1] at hdr
    rw [← e1.1]
    linarith
  · unfold Mq
    simp only [mkQ_re, mkQ_imI, mkQ_imJ, mkQ_imK]
    apply mat_ext <;> (apply Complex.ext <;> simp)
    all_goals linarith [e0.1, e0.2, e1.1, e1.2]

/-- A hermitian matrix with determinant 1 and positive trace is the matrix of a boost. -/
theorem hermitian_form (P : Mat) (hP : Pᴴ = P) (hd : P.det = 1) (ht : 0 < (P 0 0 + P 1 1).re) : ∃ v, dot v v < 1 ∧ P = Bm v := by
  have e0 := congrFun (congrFun hP 0) 0
  have e1 := congrFun (congrFun hP 0) 1
  have e2 := congrFun (congrFun hP 1) 1
  simp [Complex.ext_iff] at e0 e1 e2
  rw [Matrix.det_fin_two] at hd
  have hdr := congrArg Complex.re hd
  simp at hdr
  obtain ⟨p, hp⟩ : ∃ p, p = (P 0 0).re := ⟨_, rfl⟩
  obtain ⟨d, hd'⟩ : ∃ d, d = (P 1 1).re := ⟨_, rfl⟩
  obtain ⟨x, hx⟩ : ∃ x, x = (P 0 1).re := ⟨_, rfl⟩
  obtain ⟨y, hy⟩ : ∃ y, y = (P 0 1).im := ⟨_, rfl⟩
  have i0 : (P 0 0).im = 0 := by linarith
  have i1 : (P 1 1).im = 0 := by linarith
  have hx1 : (P 1 0).re = x := by rw [hx]; linarith [e1.1]
  have hy1 : (P 1 0).im = -y := by rw [hy]; linarith [e1.2]
  have hdet : p * d - (x ^ 2 + y ^ 2) = 1 := by
    rw [i0, i1, hx1, hy1, ← hx, ← hy, ← hp, ← hd'] at hdr
    linarith
  have ht' : 0 < p + d := by
    rw [Complex.add_re, ← hp, ← hd'] at ht
    exact ht
  have ht2 : 4 ≤ (p + d) ^ 2 := by nlinarith [sq_nonneg (p - d), sq_nonneg x, sq_nonneg y]
  obtain ⟨g, hg⟩ : ∃ g, g = (p + d) ^ 2 / 2 - 1 := ⟨_, rfl⟩
  have hg1 : 1 ≤ g := by linarith
  obtain ⟨v, hv⟩ : ∃ v : Vec, v = ![-(x * (p + d) / g), -(y * (p + d) / g), (d - p) / 2 * (p + d) / g] := ⟨_, rfl⟩
  have hvv : g ^ 2 * dot v v = g ^ 2 - 1 := by
    rw [dot_self, hv]
    simp
    field_simp
    rw [hg]
    linear_combination (-(4 * (p + d) ^ 2)) * hdet
  have hlt : dot v v < 1 := by
    by_contra h
    push Not at h
    nlinarith [sq_nonneg g]
  have hgam : gam v = g := by
    have h1 := gam_sq v hlt
    have h2 := gam_pos v hlt
    have h3 : g ^ 2 * (1 - dot v v) = 1 := by linarith
    have h4 : 0 < 1 - dot v v := by linarith
    have h5 : gam v ^ 2 = g ^ 2 := mul_right_cancel₀ h4.ne' (by rw [h1, h3])
    nlinarith
  have hc : (√(2 * (gam v + 1)))⁻¹ = (p + d)⁻¹ := by
    rw [hgam, hg]
    have : 2 * ((p + d) ^ 2 / 2 - 1 + 1) = (p + d) ^ 2 := by ring
    rw [this, Real.sqrt_sq ht'.le]
  refine ⟨v, hlt, ?_⟩
  unfold Bm
  rw [hc, hgam]
  unfold Bg
  have v0 : g * v 0 = -(x * (p + d)) := by
    rw [hv]
    simp
    field_simp
  have v1 : g * v 1 = -(y * (p + d)) := by
    rw [hv]
    simp
    field_simp
  have v2 : g * v 2 = (d - p) / 2 * (p + d) := by
    rw [hv]
    simp
    field_simp
  simp only [mul_assoc, v0, v1, v2]
  have hg' : g + 1 = (p + d) ^ 2 / 2 := by linarith
  rw [hg']
  apply mat_ext
  · apply Complex.ext
    · simp
      rw [← hp]
      field_simp
      ring
    · simp [i0]
  · apply Complex.ext
    · simp
      rw [← hx]
      field_simp
    · simp
      rw [← hy]
      field_simp
  · apply Complex.ext
    · simp
      rw [hx1]
      field_simp
    · simp
      rw [hy1]
      field_simp
  · apply Complex.ext
    · simp
      rw [← hd']
      field_simp
      ring
    · simp [i1]

end Verif.Lemmas.Bms
