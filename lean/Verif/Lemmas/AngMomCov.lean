import Verif.Props.FluxCovariance
import Verif.Lemmas.ModeCalc

/-!
# Rotations and the angular-momentum operators
-/

namespace Verif.AngMomCov
open Real Verif.Flux Verif.Wigner ComplexConjugate Verif.GridMultiply Verif.GridMultiply.Spec Verif.Sphere Verif.Spec.AngMom Verif.Props.FluxCovariance Verif.Spec.Rotation
open Verif.AbdTransform (rotateVec)
open Verif.GridModes.Spec (dir)
open Verif.GridModes (vDotR)

/-- The integral of three functions of total spin weight zero does not change when all are rotated. -/
theorem triple_rotated (s1 s2 s3 L1 L2 L3 : Int) (c1 c2 c3 : Int → Int → ℂ) (hs : -s1 + s2 + s3 = 0) (hL : 0 ≤ L1 + L2 + L3) (Q : Quaternion ℝ) (hQ : UnitRotor Q) :
    sphere (fun R => conj (expansion s1 L1 c1 (Q * R)) * expansion s2 L2 c2 (Q * R) * expansion s3 L3 c3 (Q * R)) =
      sphere (fun R => conj (expansion s1 L1 c1 R) * expansion s2 L2 c2 R * expansion s3 L3 c3 R) := by
  obtain ⟨d, hd⟩ := Verif.GridMultiply.expansion_mul (-s1) s2 L1 L2 (Charges.bar s1 c1) c2
  obtain ⟨e, he⟩ := Verif.GridMultiply.expansion_mul (-s1 + s2) s3 (L1 + L2) L3 d c3
  have hall : ∀ R, Spec.Unit R → conj (expansion s1 L1 c1 R) * expansion s2 L2 c2 R * expansion s3 L3 c3 R = expansion 0 (L1 + L2 + L3) e R := by
    intro R hR
    rw [Verif.GridMultiply.expansion_conj, hd R hR, he R hR, hs]
  have h1 : sphere (fun R => conj (expansion s1 L1 c1 (Q * R)) * expansion s2 L2 c2 (Q * R) * expansion s3 L3 c3 (Q * R)) = sphere (fun R => expansion 0 (L1 + L2 + L3) e (Q * R)) := by
    refine sphere_congr fun R hR => ?_
    exact hall (Q * R) ((unit_iff _).1 (Verif.Rotation.unit_mul hQ ((unit_iff _).2 hR)))
  rw [h1, sphere_rotated _ hL]
  exact (sphere_congr fun R hR => hall R hR).symm

/-- The direction as an expansion, when the direction is rotated. -/
theorem vDotR_rotated {Q : Quaternion ℝ} (hQ : UnitRotor Q) (v : Fin 3 → ℝ) (R : Quaternion ℝ) : expansion 0 1 (vDotR (rotateVec Q v)) (Q * R) = expansion 0 1 (vDotR v) R := by
  rw [Props.GridModes.vDotR_value, Props.GridModes.vDotR_value, dir_rotated hQ]

/-- One degree. -/
noncomputable def only (l : Int) (f : Int → ℂ) : Fn := fun ell m => if ell = l then f m else 0

theorem expansion_only (s l : Int) (hl : 0 ≤ l) (f : Int → ℂ) (R : Quaternion ℝ) : expansion s l (only l f) R = ∑ m ∈ Finset.Icc (-l) l, f m * Y s l m R := by
  unfold expansion
  rw [Finset.sum_eq_single_of_mem l (Finset.mem_Icc.2 ⟨hl, le_rfl⟩)]
  · simp [only]
  · intro ell _ h
    simp [only, h]

theorem expansion_vDotR (v : Fin 3 → ℝ) (R : Quaternion ℝ) : expansion 0 1 (vDotR v) R = ∑ a ∈ Finset.Icc (-1 : Int) 1, vDotR v 1 a * Y 0 1 a R := by
  unfold expansion
  rw [Finset.sum_eq_single_of_mem 1 (by simp)]
  intro ell _ h
  simp [vDotR, h]

/-- The constant of proportionality. -/
noncomputable def kap (l : Int) : ℝ := cg l (-1) 0 l / (√(l : ℝ) * √(l + 1 : ℝ))

theorem kap_ne (l : Int) (hl : 1 ≤ l) : kap l ≠ 0 := by
  have hLr : (1 : ℝ) ≤ l := by exact_mod_cast hl
  have p1 : 0 < √(l : ℝ) := Real.sqrt_pos.2 (by linarith)
  have p2 : 0 < √(l + 1 : ℝ) := Real.sqrt_pos.2 (by linarith)
  unfold kap
  rw [(cg_same l (-1) hl (by omega) (by omega)).2.1]
  push_cast
  have : (-1 : ℝ) / (√(l : ℝ) * √(l + 1 : ℝ)) / (√(l : ℝ) * √(l + 1 : ℝ)) < 0 := by
    apply div_neg_of_neg_of_pos
    · apply div_neg_of_neg_of_pos (by norm_num) (by positivity)
    · positivity
  exact this.ne

theorem gaunt_same (l m a : Int) (hl : 1 ≤ l) : gaunt 0 1 l m a l = √(3 / (4 * π)) * cg l m a l * cg l (-1) 0 l := by
  have hLr : (1 : ℝ) ≤ l := by exact_mod_cast hl
  have : (3 : ℝ) * (2 * l + 1) / (4 * π * (2 * l + 1)) = 3 / (4 * π) := by
    have : (2 * l + 1 : ℝ) ≠ 0 := by positivity
    have := Real.pi_ne_zero
    field_simp
  unfold gaunt
  rw [this]
  simp

theorem only_cg (l m a : Int) (f : Int → ℂ) (x : ℂ) : (if -l ≤ m ∧ m ≤ l then f m else 0) * (x * (cg l m a l : ℂ)) = f m * (x * (cg l m a l : ℂ)) := by
  split
  · rfl
  · rename_i h
    rw [cg_zero h]
    simp

/-- The angular-momentum operators are the part of degree `ell` of the product with the direction. -/
theorem product_L (l n : Int) (hl : 1 ≤ l) (hn1 : -l ≤ n) (hn2 : n ≤ l) (f : Int → ℂ) (v : Fin 3 → ℝ) :
    ∑ a ∈ Finset.Icc (-1 : Int) 1, ∑ m ∈ Finset.Icc (-l) l, vDotR v 1 a * f m * (if n = m + a then (gaunt 0 1 l m a l : ℂ) else 0) = kap l * vL v (only l f) l n := by
  have hLr : (1 : ℝ) ≤ l := by exact_mod_cast hl
  have e1 : ∀ a : Int, ∑ m ∈ Finset.Icc (-l) l, vDotR v 1 a * f m * (if n = m + a then (gaunt 0 1 l m a l : ℂ) else 0) = vDotR v 1 a * f (n - a) * (gaunt 0 1 l (n - a) a l : ℂ) := by
    intro a
    by_cases h : n - a ∈ Finset.Icc (-l) l
    · rw [Finset.sum_eq_single_of_mem (n - a) h]
      · rw [if_pos (by ring)]
      · intro b _ hb
        rw [if_neg (by omega), mul_zero]
    · rw [Finset.mem_Icc] at h
      rw [gaunt_same _ _ _ hl, cg_zero h, Finset.sum_eq_zero]
      · simp
      · intro m hm
        rw [Finset.mem_Icc] at hm
        rw [if_neg (by intro e; omega), mul_zero]
  have e2 : (Finset.Icc (-1 : Int) 1) = {-1, 0, 1} := by decide
  rw [Finset.sum_congr rfl fun a _ => e1 a, e2, Finset.sum_insert (by decide), Finset.sum_insert (by decide), Finset.sum_singleton]
  simp only [gaunt_same _ _ _ hl]
  have k1 : √(2 * π / 3) = √(4 * π / 3) / √2 := by
    rw [← Real.sqrt_div' _ (by norm_num)]
    congr 1
    ring
  have k2 : √(4 * π / 3) * √(3 / (4 * π)) = 1 := by
    rw [← Real.sqrt_mul (by positivity)]
    have : 4 * π / 3 * (3 / (4 * π)) = 1 := by
      have := Real.pi_ne_zero
      field_simp
    rw [this, Real.sqrt_one]
  have q2 : √(2 : ℝ) * √2 = 2 := Real.mul_self_sqrt (by norm_num)
  have hq2 : (√(2 : ℝ)) ≠ 0 := (Real.sqrt_pos.2 (by norm_num)).ne'
  have p1 : (√(l : ℝ)) ≠ 0 := (Real.sqrt_pos.2 (by linarith)).ne'
  have p2 : (√(l + 1 : ℝ)) ≠ 0 := (Real.sqrt_pos.2 (by linarith)).ne'
  have hzz : √(l : ℝ) * √(l + 1 : ℝ) ≠ 0 := mul_ne_zero p1 p2
  have c1 : cg l (n - 1) 1 l = -(√((l - n + 1) * (l + n) : ℝ) / (√2 * (√(l : ℝ) * √(l + 1 : ℝ)))) := by
    by_cases h : -l ≤ n - 1
    · rw [(cg_same l (n - 1) hl h (by omega)).1]
      have : (0 : ℝ) ≤ l - n + 1 := by
        have : (n : ℝ) ≤ l := by exact_mod_cast hn2
        linarith
      rw [Real.sqrt_mul this]
      push_cast
      rw [show (l : ℝ) + (n - 1) + 1 = l + n by ring, show (l : ℝ) - (n - 1) = l - n + 1 by ring]
      ring
    · rw [cg_zero (by omega)]
      have : n = -l := by omega
      subst this
      push_cast
      simp
  have c0 : cg l (n - 0) 0 l = n / (√(l : ℝ) * √(l + 1 : ℝ)) := by
    rw [sub_zero, (cg_same l n hl hn1 hn2).2.1]
  have cm : cg l (n - -1) (-1) l = √((l + n + 1) * (l - n) : ℝ) / (√2 * (√(l : ℝ) * √(l + 1 : ℝ))) := by
    by_cases h : n + 1 ≤ l
    · rw [(cg_same l (n - -1) hl (by omega) (by omega)).2.2]
      have : (0 : ℝ) ≤ l + n + 1 := by
        have : (-l : ℝ) ≤ n := by exact_mod_cast hn1
        linarith
      rw [Real.sqrt_mul this]
      push_cast
      rw [show (l : ℝ) - (n - -1) + 1 = l - n by ring, show (l : ℝ) + (n - -1) = l + n + 1 by ring]
      ring
    · rw [cg_zero (by omega)]
      have : n = l := by omega
      subst this
      simp
  rw [c1, c0, cm]
  have v1 : vDotR v 1 1 = (-v 0 + v 1 * Complex.I) * (√(2 * π / 3) : ℝ) := by
    apply Complex.ext <;> simp [vDotR, TransformKwargs.vectorAs]
  have v0 : vDotR v 1 0 = v 2 * (√(4 * π / 3) : ℝ) := by
    simp [vDotR, TransformKwargs.vectorAs]
  have vm : vDotR v 1 (-1) = (v 0 + v 1 * Complex.I) * (√(2 * π / 3) : ℝ) := by
    apply Complex.ext <;> simp [vDotR, TransformKwargs.vectorAs]
  rw [v1, v0, vm, k1]
  unfold vL kap
  rw [Fin.sum_univ_three]
  have l0 : L 0 (only l f) l n = (raise (only l f) l n + lower (only l f) l n) / 2 := rfl
  have l1 : L 1 (only l f) l n = (raise (only l f) l n - lower (only l f) l n) / (2 * Complex.I) := rfl
  have l2 : L 2 (only l f) l n = n * only l f l n := rfl
  have r : raise (only l f) l n = (√((l - n + 1) * (l + n) : ℝ) : ℝ) * f (n - 1) := by
    unfold raise only
    rw [if_pos rfl]
  have r' : lower (only l f) l n = (√((l + n + 1) * (l - n) : ℝ) : ℝ) * f (n + 1) := by
    unfold lower only
    rw [if_pos rfl]
  have r0 : only l f l n = f n := by simp [only]
  rw [l0, l1, l2, r, r', r0, sub_zero, sub_neg_eq_add]
  generalize √((l - n + 1) * (l + n) : ℝ) = A at *
  generalize √((l + n + 1) * (l - n) : ℝ) = B at *
  generalize √(4 * π / 3) = x at *
  generalize √(3 / (4 * π)) = y at *
  generalize √(l : ℝ) * √(l + 1 : ℝ) = z at *
  generalize cg l (-1) 0 l = g at *
  have hz := hzz
  have k2' : (x : ℂ) * y = 1 := by exact_mod_cast k2
  have q2' : ((√(2 : ℝ) : ℝ) : ℂ) * (√(2 : ℝ) : ℝ) = 2 := by exact_mod_cast q2
  have hq2' : ((√(2 : ℝ) : ℝ) : ℂ) ≠ 0 := by exact_mod_cast hq2
  generalize √(2 : ℝ) = w at *
  have hz' : (z : ℂ) ≠ 0 := by exact_mod_cast hz
  have hI := Complex.I_sq
  have hI0 := Complex.I_ne_zero
  have i1 : ∀ t : ℂ, t / (2 * Complex.I) = -(Complex.I / 2) * t := by
    intro t
    field_simp
    rw [hI]
    ring
  have w1 : ∀ t : ℂ, t / (w * z) = t * w / (2 * z) := by
    intro t
    rw [← q2']
    field_simp
  have w2 : (x : ℂ) / w = x * w / 2 := by
    rw [← q2']
    field_simp
  rw [i1]
  push_cast
  rw [w1, w1, w2]
  field_simp
  generalize f (n - 1) = fm
  generalize f (n + 1) = fp
  generalize f n = f0
  linear_combination (g : ℂ) * ((v 0 + v 1 * Complex.I) * w ^ 2 * fp * B + (2 ^ 2 * v 2 * f0 * n + -(w ^ 2 * (-v 0 + v 1 * Complex.I) * fm * A))) * k2' +
    (g : ℂ) * ((v 0 + v 1 * Complex.I) * fp * B - (-v 0 + v 1 * Complex.I) * fm * A) * q2'

theorem form_cont (v : Fin 3 → ℝ) : Cont (expansion 0 1 (vDotR v)) :=
  Cont.sum fun ell _ => Cont.sum fun m hm => by
    rw [Finset.mem_Icc] at hm
    exact Cont.smul _ (Y_cont 0 ell m hm.1 hm.2)

/-- The integral with the direction gives the angular-momentum operators. -/
theorem form_L (l : Int) (hl : 1 ≤ l) (f g : Int → ℂ) (v : Fin 3 → ℝ) :
    sphere (fun R => conj (expansion 1 l (only l g) R) * expansion 1 l (only l f) R * expansion 0 1 (vDotR v) R) =
      kap l * ∑ n ∈ Finset.Icc (-l) l, conj (g n) * vL v (only l f) l n := by
  have e : (fun R => conj (expansion 1 l (only l g) R) * expansion 1 l (only l f) R * expansion 0 1 (vDotR v) R) =
      fun R => ∑ n ∈ Finset.Icc (-l) l, ∑ a ∈ Finset.Icc (-1 : Int) 1, ∑ m ∈ Finset.Icc (-l) l, (conj (g n) * (vDotR v 1 a * f m)) * (conj (Y 1 l n R) * (Y 0 1 a R * Y 1 l m R)) := by
    funext R
    rw [expansion_only _ _ (by omega), expansion_only _ _ (by omega), expansion_vDotR, map_sum, mul_assoc, Finset.sum_mul]
    refine Finset.sum_congr rfl fun n _ => ?_
    rw [mul_comm (∑ m ∈ Finset.Icc (-l) l, f m * Y 1 l m R), Finset.sum_mul, Finset.mul_sum]
    refine Finset.sum_congr rfl fun a _ => ?_
    rw [Finset.mul_sum, Finset.mul_sum]
    refine Finset.sum_congr rfl fun m _ => ?_
    rw [map_mul]
    ring
  have hc : ∀ n ∈ Finset.Icc (-l) l, ∀ a ∈ Finset.Icc (-1 : Int) 1, ∀ m ∈ Finset.Icc (-l) l, Cont fun R => (conj (g n) * (vDotR v 1 a * f m)) * (conj (Y 1 l n R) * (Y 0 1 a R * Y 1 l m R)) := by
    intro n hn a ha m hm
    rw [Finset.mem_Icc] at hn ha hm
    exact Cont.smul _ (Cont.mul (Cont.conj (Y_cont 1 l n hn.1 hn.2)) (Cont.mul (Y_cont 0 1 a ha.1 ha.2) (Y_cont 1 l m hm.1 hm.2)))
  rw [e, sphere_sum _ _ fun n hn => Cont.sum fun a ha => Cont.sum fun m hm => hc n hn a ha m hm, Finset.mul_sum]
  refine Finset.sum_congr rfl fun n hn => ?_
  rw [sphere_sum _ _ fun a ha => Cont.sum fun m hm => hc n hn a ha m hm]
  have hn' := Finset.mem_Icc.1 hn
  have p := product_L l n hl hn'.1 hn'.2 f v
  rw [show (kap l : ℂ) * (conj (g n) * vL v (only l f) l n) = conj (g n) * (kap l * vL v (only l f) l n) by ring, ← p, Finset.mul_sum]
  refine Finset.sum_congr rfl fun a ha => ?_
  rw [sphere_sum _ _ fun m hm => hc n hn a ha m hm, Finset.mul_sum]
  refine Finset.sum_congr rfl fun m hm => ?_
  rw [Finset.mem_Icc] at ha hm
  rw [sphere_smul, triple 1 l n 0 1 l m a (by ring) hn'.1 hn'.2 (by omega) hm.1 hm.2 (by omega) (by simp)]
  ring

/-- The modes of one degree after a rotation. -/
theorem only_rotated (s l : Int) (hl : 0 ≤ l) (f : Int → ℂ) (Q R : Quaternion ℝ) : expansion s l (only l f) (Q * R) = expansion s l (only l (rot l Q f)) R := by
  rw [Props.GridModes.expansion_rotated]
  unfold expansion
  refine Finset.sum_congr rfl fun ell _ => Finset.sum_congr rfl fun m _ => ?_
  congr 1
  unfold only rot
  split
  · rename_i h
    subst h
    simp
  · rename_i h
    simp [h]

/-- Rotating the modes preserves the forms of the angular-momentum operators, with the vector rotated. -/
theorem form_rotated (l : Int) (hl : 1 ≤ l) (f g : Int → ℂ) (v : Fin 3 → ℝ) (Q : Quaternion ℝ) (hQ : UnitRotor Q) :
    ∑ n ∈ Finset.Icc (-l) l, conj (rot l Q g n) * vL v (only l (rot l Q f)) l n = ∑ n ∈ Finset.Icc (-l) l, conj (g n) * vL (rotateVec Q v) (only l f) l n := by
  have h1 := form_L l hl (rot l Q f) (rot l Q g) v
  have h2 := form_L l hl f g (rotateVec Q v)
  have h3 := triple_rotated 1 1 0 l l 1 (only l g) (only l f) (vDotR (rotateVec Q v)) (by ring) (by omega) Q hQ
  simp only [vDotR_rotated hQ, only_rotated 1 l (by omega)] at h3
  rw [h3, h2] at h1
  have hk : (kap l : ℂ) ≠ 0 := by exact_mod_cast kap_ne l hl
  exact (mul_left_cancel₀ hk h1).symm

/-- The adjoint of a rotation of the modes is the inverse rotation. -/
theorem rot_adjoint (l : Int) (g h : Int → ℂ) (Q : Quaternion ℝ) :
    ∑ n ∈ Finset.Icc (-l) l, conj (rot l Q g n) * h n = ∑ n ∈ Finset.Icc (-l) l, conj (g n) * rot l (star Q) h n := by
  unfold rot
  simp only [map_sum, Finset.sum_mul, Finset.mul_sum]
  rw [Finset.sum_comm]
  refine Finset.sum_congr rfl fun m hm => Finset.sum_congr rfl fun n hn => ?_
  rw [Finset.mem_Icc] at hm hn
  rw [Verif.Rotation.Dlm_star l Q n m hn hm, map_mul]
  ring

/-- The modes of all degrees with respect to the basis rotated by `Q`. -/
noncomputable def rotF (Q : Quaternion ℝ) (f : Fn) : Fn := fun ell => rot ell Q (f ell)

theorem vL_only (v : Fin 3 → ℝ) (f : Fn) (l n : Int) : vL v (only l (f l)) l n = vL v f l n := by
  unfold vL L raise lower only
  simp

theorem vL_zero (v : Fin 3 → ℝ) (f : Fn) : vL v f 0 0 = 0 := by
  unfold vL L raise lower
  simp [Fin.sum_univ_three]

theorem inner_rotF (a b : Int) (f g : Fn) (Q : Quaternion ℝ) (hQ : UnitRotor Q) :
    Verif.Spec.AngMom.inner a b (rotF Q g) (rotF Q f) = Verif.Spec.AngMom.inner a b g f := by
  unfold Verif.Spec.AngMom.inner rotF
  refine Finset.sum_congr rfl fun l _ => ?_
  rw [rot_adjoint]
  refine Finset.sum_congr rfl fun n hn => ?_
  rw [Finset.mem_Icc] at hn
  rw [Verif.Rotation.rot_rot l Q (star Q) _ n hn, mul_star_unit hQ, Verif.Rotation.rot_one l _ n hn]

/-- The angular-momentum operators after a rotation. -/
theorem vL_rotF (v : Fin 3 → ℝ) (f : Fn) (Q : Quaternion ℝ) (hQ : UnitRotor Q) (l n : Int) (hl : 0 ≤ l) (hn1 : -l ≤ n) (hn2 : n ≤ l) :
    vL v (rotF Q f) l n = rotF Q (vL (rotateVec Q v) f) l n := by
  rcases hl.eq_or_lt with rfl | hl
  · have : n = 0 := by omega
    subst this
    rw [vL_zero]
    unfold rotF rot
    rw [show Finset.Icc (-(0 : Int)) 0 = {0} by decide, Finset.sum_singleton, vL_zero, zero_mul]
  · have key : ∀ k, -l ≤ k → k ≤ l → rot l (star Q) (fun n => vL v (rotF Q f) l n) k = vL (rotateVec Q v) f l k := by
      intro k hk1 hk2
      have h := form_rotated l (by omega) (f l) (Pi.single k 1) v Q hQ
      rw [rot_adjoint] at h
      have e : ∀ F : Int → ℂ, ∑ n ∈ Finset.Icc (-l) l, conj ((Pi.single k 1 : Int → ℂ) n) * F n = F k := by
        intro F
        rw [Finset.sum_eq_single_of_mem k (Finset.mem_Icc.2 ⟨hk1, hk2⟩)]
        · simp
        · intro b _ hb
          simp [Pi.single_apply, hb]
      rw [e, e, vL_only] at h
      rw [← h]
      unfold rot
      refine Finset.sum_congr rfl fun n _ => ?_
      congr 1
      exact (vL_only v (rotF Q f) l n).symm
    have h2 : rot l Q (rot l (star Q) (fun n => vL v (rotF Q f) l n)) n = vL v (rotF Q f) l n := by
      rw [Verif.Rotation.rot_rot l (star Q) Q _ n ⟨hn1, hn2⟩, star_mul_unit hQ, Verif.Rotation.rot_one l _ n ⟨hn1, hn2⟩]
    rw [← h2]
    unfold rotF
    refine Verif.Rotation.rot_congr l Q _ _ n fun k hk => ?_
    exact key k hk.1 hk.2

end Verif.AngMomCov
