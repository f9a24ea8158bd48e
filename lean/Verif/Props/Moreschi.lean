import Verif.Model.Moreschi
import Verif.Spec.Moreschi
import Verif.Props.GridMultiply
import Verif.Props.Charges
import Verif.Props.Superrest
import Verif.Props.SuperrestLoop
import Verif.Props.Modes
import Verif.Props.Cwwy
import Verif.Lemmas.WignerConj
import Verif.Lemmas.Sphere

/-!
# The search for the supertranslation to the superrest frame
-/

namespace Verif.Props.Moreschi
open Verif Verif.Modes Verif.Superrest Verif.GridMultiply Verif.GridMultiply.Spec Verif.SuperrestLoop Verif.Moreschi Verif.Spec.Moreschi Verif.Spec.Sphere ComplexConjugate

/-! ## The conformal factor -/

/-- The four-vector is that of `charge_vector_from_aspect` (C34). -/
theorem fourVector_eq (f : Int → Int → ℂ) (i : Fin 4) : fourVector (f 0 0) (f 1 (-1)) (f 1 0) (f 1 1) i = Verif.Spec.Charges.vector f i := by
  obtain ⟨h0, h1, h2, h3⟩ := Verif.Props.Charges.vector_eq f
  unfold fourVector
  fin_cases i
  · exact h0.symm
  · refine Eq.trans ?_ h1.symm
    simp
  · refine Eq.trans ?_ h2.symm
    simp
  · exact h3.symm

/-- C79: `P` is the four-momentum `-(1/4π) ∫ Re Ψ (1, n)`. -/
theorem momentum_spec (row : Row ℂ) (i : Fin 4) : momentum row i = -Verif.Spec.Charges.vector (modesOf row) i := by
  rw [← fourVector_eq]
  rfl

theorem harmonics_one (θ φ : ℝ) : (Y 0 1 (-1) (rotor θ φ) - Y 0 1 1 (rotor θ φ)).re = √(3 / (2 * Real.pi)) * nHat 0 θ φ ∧
    (Y 0 1 (-1) (rotor θ φ) + Y 0 1 1 (rotor θ φ)).im = -(√(3 / (2 * Real.pi)) * nHat 1 θ φ) ∧ (Y 0 1 0 (rotor θ φ)).re = √(3 / (4 * Real.pi)) * nHat 2 θ φ := by
  have hz := Verif.Sphere.Y_cos θ φ
  have hp := Verif.Sphere.Y_sin 1 (by simp) θ φ
  have hm := Verif.Sphere.Y_sin (-1) (by simp) θ φ
  have e3 : √(3 / (2 * Real.pi)) = 2 / √(8 * Real.pi / 3) := by
    rw [eq_div_iff (by positivity), ← Real.sqrt_mul (by positivity), show 3 / (2 * Real.pi) * (8 * Real.pi / 3) = 2 ^ 2 by field_simp; norm_num, Real.sqrt_sq (by norm_num)]
  have e4 : √(3 / (4 * Real.pi)) = 1 / √(4 * Real.pi / 3) := by
    rw [eq_div_iff (by positivity), ← Real.sqrt_mul (by positivity), show 3 / (4 * Real.pi) * (4 * Real.pi / 3) = 1 by field_simp, Real.sqrt_one]
  rw [e3, e4]
  have ne8 : √(8 * Real.pi / 3) ≠ 0 := by positivity
  have ne4 : √(4 * Real.pi / 3) ≠ 0 := by positivity
  generalize √(8 * Real.pi / 3) = x at *
  generalize √(4 * Real.pi / 3) = y at *
  rw [show ((1 : Int) : ℂ) * φ * Complex.I = (φ : ℝ) * Complex.I by push_cast; ring, Complex.exp_mul_I] at hp
  rw [show ((-1 : Int) : ℂ) * φ * Complex.I = ((-φ : ℝ) : ℂ) * Complex.I by push_cast; ring, Complex.exp_mul_I] at hm
  rw [← Complex.ofReal_cos, ← Complex.ofReal_sin] at hp hm
  have f1 : (1 : Fin 3) ≠ 0 := by decide
  have f2 : (2 : Fin 3) ≠ 0 := by decide
  have f3 : (2 : Fin 3) ≠ 1 := by decide
  unfold nHat
  simp only [f1, f2, f3, if_true, if_false]
  have hpr := congrArg Complex.re hp
  have hpi := congrArg Complex.im hp
  have hmr := congrArg Complex.re hm
  have hmi := congrArg Complex.im hm
  have hzr := congrArg Complex.re hz
  simp only [Complex.re_ofReal_mul, Complex.im_ofReal_mul, Complex.add_re, Complex.add_im, Complex.mul_re, Complex.mul_im, Complex.ofReal_re, Complex.ofReal_im, Complex.I_re, Complex.I_im, Real.cos_neg, Real.sin_neg] at hpr hpi hmr hmi hzr
  push_cast at hpr hpi hmr hmi
  refine ⟨?_, ?_, ?_⟩
  · rw [Complex.sub_re, div_mul_eq_mul_div, eq_div_iff ne8]
    linarith
  · rw [Complex.add_im, div_mul_eq_mul_div, ← neg_div, eq_div_iff ne8]
    linarith
  · rw [div_mul_eq_mul_div, eq_div_iff ne4]
    linarith

/-- C79: `r_vector` is not `(1, n)`: the sign of the `y` component is wrong. -/
theorem rVector_spec (θ φ : ℝ) : rVector (rotor θ φ) = ![1, nHat 0 θ φ, -nHat 1 θ φ, nHat 2 θ φ] := by
  obtain ⟨h1, h2, h3⟩ := harmonics_one θ φ
  have hp : (0 : ℝ) < √(4 * Real.pi) := by positivity
  have sq : √(4 * Real.pi) * √(4 * Real.pi) = 4 * Real.pi := Real.mul_self_sqrt (by positivity)
  have r1 : 4 * Real.pi * (√(3 / (2 * Real.pi)) / √6 / √(4 * Real.pi)) = 1 := by
    have : √(3 / (2 * Real.pi)) = √6 / √(4 * Real.pi) := by
      rw [← Real.sqrt_div (by norm_num)]
      congr 1
      field_simp
      norm_num
    rw [this]
    field_simp
    rw [pow_two, sq]
  have r2 : 4 * Real.pi * (√(3 / (4 * Real.pi)) / √3 / √(4 * Real.pi)) = 1 := by
    rw [Real.sqrt_div (by norm_num)]
    field_simp
    rw [pow_two, sq]
  funext i
  unfold rVector fourVector
  fin_cases i
  · show 4 * Real.pi * ((Y 0 0 0 (rotor θ φ)).re / √(4 * Real.pi)) = 1
    rw [Verif.Sphere.Y000, Complex.ofReal_re]
    field_simp
    rw [pow_two, sq]
  · show 4 * Real.pi * ((Y 0 1 (-1) (rotor θ φ) - Y 0 1 1 (rotor θ φ)).re / √6 / √(4 * Real.pi)) = nHat 0 θ φ
    rw [h1]
    linear_combination nHat 0 θ φ * r1
  · show 4 * Real.pi * ((Y 0 1 (-1) (rotor θ φ) + Y 0 1 1 (rotor θ φ)).im / √6 / √(4 * Real.pi)) = -nHat 1 θ φ
    rw [h2]
    linear_combination -nHat 1 θ φ * r1
  · show 4 * Real.pi * ((Y 0 1 0 (rotor θ φ)).re / √3 / √(4 * Real.pi)) = nHat 2 θ φ
    rw [h3]
    linear_combination nHat 2 θ φ * r2

theorem nHat_sq (θ φ : ℝ) : nHat 0 θ φ ^ 2 + nHat 1 θ φ ^ 2 + nHat 2 θ φ ^ 2 = 1 := by
  have f1 : (1 : Fin 3) ≠ 0 := by decide
  have f2 : (2 : Fin 3) ≠ 0 := by decide
  have f3 : (2 : Fin 3) ≠ 1 := by decide
  unfold nHat
  simp only [f1, f2, f3, if_true, if_false]
  have h1 := Real.sin_sq_add_cos_sq θ
  have h2 := Real.sin_sq_add_cos_sq φ
  linear_combination Real.sin θ ^ 2 * h2 + h1

/-- For a timelike momentum the denominators are positive. -/
theorem denominator_pos {E a b c x y z : ℝ} (hE : 0 < E) (h : a ^ 2 + b ^ 2 + c ^ 2 < E ^ 2) (hn : x ^ 2 + y ^ 2 + z ^ 2 = 1) : 0 < E - (a * x + b * y + c * z) := by
  have cs : (a * x + b * y + c * z) ^ 2 ≤ (a ^ 2 + b ^ 2 + c ^ 2) * (x ^ 2 + y ^ 2 + z ^ 2) := by
    nlinarith [sq_nonneg (a * y - b * x), sq_nonneg (a * z - c * x), sq_nonneg (b * z - c * y)]
  rw [hn, mul_one] at cs
  have := abs_lt_of_sq_lt_sq (lt_of_le_of_lt cs h) hE.le
  linarith [(abs_lt.1 this).2]

/-- C79: the conformal factor of the code is that of the rest frame exactly where the `y` components of the momentum and of the direction have the product 0. -/
theorem conformal_iff (row : Row ℂ) (hE : 0 < momentum row 0) (ht : momentum row 1 ^ 2 + momentum row 2 ^ 2 + momentum row 3 ^ 2 < momentum row 0 ^ 2) (θ φ : ℝ) :
    conformalAt row (rotor θ φ) = factor (momentum row 0) ![momentum row 1, momentum row 2, momentum row 3] θ φ ↔ momentum row 2 * nHat 1 θ φ = 0 := by
  unfold conformalAt factor restMass
  rw [rVector_spec]
  simp only [Matrix.cons_val]
  generalize momentum row 0 = E at *
  generalize momentum row 1 = a at *
  generalize momentum row 2 = b at *
  generalize momentum row 3 = c at *
  have hn := nHat_sq θ φ
  generalize nHat 0 θ φ = x at *
  generalize nHat 1 θ φ = y at *
  generalize nHat 2 θ φ = z at *
  have d1 := denominator_pos (x := x) (y := y) (z := z) hE ht hn
  have d2 := denominator_pos (x := x) (y := -y) (z := z) hE ht (by linear_combination hn)
  have hM : 0 < √(E ^ 2 - (a ^ 2 + b ^ 2 + c ^ 2)) := Real.sqrt_pos.2 (by linarith)
  rw [mul_one, div_eq_div_iff d2.ne' d1.ne', mul_right_inj' hM.ne']
  constructor <;> intro h <;> linarith

/-- C79, partial: if the momentum has no `y` component, the conformal factor is right everywhere. -/
theorem conformal_partial (row : Row ℂ) (hE : 0 < momentum row 0) (ht : momentum row 1 ^ 2 + momentum row 2 ^ 2 + momentum row 3 ^ 2 < momentum row 0 ^ 2) (hy : momentum row 2 = 0) (θ φ : ℝ) :
    conformalAt row (rotor θ φ) = factor (momentum row 0) ![momentum row 1, momentum row 2, momentum row 3] θ φ :=
  (conformal_iff row hE ht θ φ).2 (by rw [hy, zero_mul])

/-- C79: the rest mass is that of the four-momentum. -/
theorem rest_mass_spec (row : Row ℂ) (h : 0 ≤ momentum row 0 ^ 2 - (momentum row 1 ^ 2 + momentum row 2 ^ 2 + momentum row 3 ^ 2)) :
    0 ≤ restMass row ∧ restMass row ^ 2 = momentum row 0 ^ 2 - (momentum row 1 ^ 2 + momentum row 2 ^ 2 + momentum row 3 ^ 2) :=
  ⟨Real.sqrt_nonneg _, Real.sq_sqrt h⟩

/-- A supermomentum with energy 2 and momentum 1 in the direction y. -/
noncomputable def movingY : Row ℂ := fun i => if i = 0 then -(2 * √(4 * Real.pi) : ℝ) else if i = 1 ∨ i = 3 then -Complex.I * (√6 * √(4 * Real.pi) / 2 : ℝ) else 0

theorem movingY_momentum : momentum movingY = ![2, 0, 1, 0] := by
  have hp : √(4 * Real.pi) ≠ 0 := by positivity
  funext i
  unfold momentum fourVector movingY
  fin_cases i
  · simp
    field_simp
  · simp
  · simp
    field_simp
    norm_num
  · simp

/-- C79: in the direction y, the factor found is 1/√3; the right one is √3. -/
theorem conformal_wrong : conformalAt movingY (rotor (Real.pi / 2) (Real.pi / 2)) = √3 / 3 ∧
    factor (momentum movingY 0) ![momentum movingY 1, momentum movingY 2, momentum movingY 3] (Real.pi / 2) (Real.pi / 2) = √3 := by
  have hs : √((2 : ℝ) ^ 2 - (0 ^ 2 + 1 ^ 2 + 0 ^ 2)) = √3 := by norm_num
  have n1 : nHat 1 (Real.pi / 2) (Real.pi / 2) = 1 := by simp [nHat]
  constructor
  · unfold conformalAt restMass
    rw [rVector_spec, movingY_momentum]
    simp only [Matrix.cons_val]
    rw [hs, n1]
    norm_num
  · rw [movingY_momentum]
    unfold factor
    simp only [Matrix.cons_val]
    rw [hs, n1]
    norm_num

/-! ## Grids -/

theorem nodes_length (n : Nat) : (nodes n).length = n * n := by
  unfold nodes
  rw [List.length_flatMap]
  simp

theorem flat_get {α : Type} (n m : Nat) (f : Nat → Nat → α) (i j : Nat) (hj : j < m) (hi : i < n) : ((List.range n).flatMap fun a => (List.range m).map (f a))[i * m + j]? = some (f i j) := by
  induction n with
  | zero => omega
  | succ n ih =>
    rw [List.range_succ, List.flatMap_append]
    have hl : ((List.range n).flatMap fun a => (List.range m).map (f a)).length = n * m := by
      rw [List.length_flatMap]; simp
    by_cases h : i < n
    · rw [List.getElem?_append_left]
      · exact ih h
      · rw [hl]
        calc i * m + j < i * m + m := by omega
          _ = (i + 1) * m := by ring
          _ ≤ n * m := Nat.mul_le_mul_right m h
    · have : i = n := by omega
      subst this
      rw [List.getElem?_append_right (by rw [hl]; omega), hl]
      simp [hj]

/-- The directions of the grid. -/
noncomputable def node (n i j : Nat) : Quaternion ℝ := rotor (Real.pi * i / ((n : ℝ) - 1)) (2 * Real.pi * j / n)

theorem nodes_get (n i j : Nat) (hi : i < n) (hj : j < n) : (nodes n)[i * n + j]? = some (node n i j) := flat_get n n (fun i j => node n i j) i j hj hi

/-- The entries picked from a larger grid are values in other directions. -/
theorem pick_map (n n' : Nat) (F : Quaternion ℝ → ℝ) (h : n ≤ n') : pick n n' ((nodes n').map F) = .ok ((List.range n).flatMap fun i => (List.range n).map fun j => F (node n' i j)) := by
  unfold pick
  rw [if_pos h]
  congr 1
  rw [List.flatMap_congr]
  intro i hi
  rw [List.mem_range] at hi
  apply List.map_congr_left
  intro j hj
  rw [List.mem_range] at hj
  rw [List.getD_eq_getElem?_getD, List.getElem?_map, nodes_get n' i j (by omega) (by omega)]
  rfl

theorem pick_same (n : Nat) (F : Quaternion ℝ → ℝ) : pick n n ((nodes n).map F) = .ok ((nodes n).map F) := by
  rw [pick_map n n F le_rfl]
  congr 1
  unfold nodes
  rw [List.map_flatMap]
  rw [List.flatMap_congr]
  intro i hi
  rw [List.map_map]
  rfl

theorem map_getD {α β : Type} (l : List α) (f : α → β) (d : β) : ((List.range l.length).map fun g => (l.map f).getD g d) = l.map f := by
  apply List.ext_getElem
  · simp
  · intro i h1 h2
    simp at h1
    simp [h1]

theorem interp_const {spline : List ℝ → List ℝ → ℝ → ℝ} (hs : ConstSpline spline) (t : List ℝ) (ht : 2 ≤ t.length) (l : List (Quaternion ℝ)) (F : Quaternion ℝ → ℝ) (alpha : List ℝ) (ha : alpha.length = l.length) :
    interp spline t (List.replicate t.length (l.map F)) alpha = l.map F := by
  unfold interp
  rw [ha]
  rw [← map_getD l F 0]
  apply List.map_congr_left
  intro g _
  rw [List.map_replicate, hs t _ _ ht, map_getD]

/-- Conjugates of functions on the sphere. -/
theorem expansion_real {L : Int} {c : Int → Int → ℂ} (h : RealFunction L c) (R : Quaternion ℝ) : expansion 0 L c R = ((expansion 0 L c R).re : ℝ) := by
  symm
  rw [← Complex.conj_eq_iff_re]
  unfold expansion
  rw [map_sum]
  refine Finset.sum_congr rfl fun ell hl => ?_
  rw [Finset.mem_Icc] at hl
  rw [map_sum]
  refine Finset.sum_bij' (fun m _ => -m) (fun m _ => -m) ?_ ?_ ?_ ?_ ?_
  · intro m hm; rw [Finset.mem_Icc] at hm ⊢; omega
  · intro m hm; rw [Finset.mem_Icc] at hm ⊢; omega
  · intro m _; exact neg_neg m
  · intro m _; exact neg_neg m
  · intro m hm
    rw [Finset.mem_Icc, ← abs_le] at hm
    rw [map_mul, Verif.GridMultiply.Y_conj 0 ell m R hm, h ell m hl.1 hl.2 hm, neg_zero, zero_add]
    have : ((-1 : ℂ)) ^ m.natAbs * (-1) ^ m.natAbs = 1 := by rw [← mul_pow]; norm_num
    ring_nf

theorem expansion_congr' {L : Int} {c d : Int → Int → ℂ} (h : ∀ ell m, 0 ≤ ell → ell ≤ L → |m| ≤ ell → c ell m = d ell m) (R : Quaternion ℝ) : expansion 0 L c R = expansion 0 L d R := by
  unfold expansion
  refine Finset.sum_congr rfl fun ell hl => Finset.sum_congr rfl fun m hm => ?_
  rw [Finset.mem_Icc] at hl
  rw [Finset.mem_Icc, ← abs_le] at hm
  rw [h ell m hl.1 hl.2 hm]

theorem expansion_add (L : Int) (c d : Int → Int → ℂ) (R : Quaternion ℝ) : expansion 0 L (fun a b => c a b + d a b) R = expansion 0 L c R + expansion 0 L d R := by
  unfold expansion
  rw [← Finset.sum_add_distrib]
  refine Finset.sum_congr rfl fun ell _ => ?_
  rw [← Finset.sum_add_distrib]
  exact Finset.sum_congr rfl fun m _ => add_mul _ _ _

theorem salm_eq (row : Row ℂ) (L : Int) (n : Nat) : salm2map row 0 L n = (nodes n).map (expansion 0 L (modesOf row)) := by
  unfold salm2map
  exact List.map_congr_left fun R _ => Verif.Props.GridMultiply.value_eq 0 L row R

/-! ## At rest -/

theorem rest_momentum {row : Row ℂ} (h : AtRest row) : momentum row = ![-(modesOf row 0 0).re / √(4 * Real.pi), 0, 0, 0] := by
  have e0 : row 0 = modesOf row 0 0 := rfl
  have e1 : row 1 = 0 := by have := h.momentum (-1) (by norm_num); simpa [modesOf, lmIndex] using this
  have e2 : row 2 = 0 := by have := h.momentum 0 (by norm_num); simpa [modesOf, lmIndex] using this
  have e3 : row 3 = 0 := by have := h.momentum 1 (by norm_num); simpa [modesOf, lmIndex] using this
  funext i
  unfold momentum fourVector
  rw [e0, e1, e2, e3]
  fin_cases i
  · simp; ring
  · simp
  · simp
  · simp

theorem rest_mass {row : Row ℂ} (h : AtRest row) : restMass row = -(modesOf row 0 0).re / √(4 * Real.pi) := by
  unfold restMass
  rw [rest_momentum h]
  simp only [Matrix.cons_val]
  have : 0 ≤ -(modesOf row 0 0).re / √(4 * Real.pi) := div_nonneg (by linarith [h.energy]) (Real.sqrt_nonneg _)
  rw [show ∀ x : ℝ, x ^ 2 - (0 ^ 2 + 0 ^ 2 + 0 ^ 2) = x ^ 2 by intro x; ring, Real.sqrt_sq this]

/-- C79: at rest the conformal factor is 1. -/
theorem rest_conformal {row : Row ℂ} (h : AtRest row) (L : Int) : conformal row L = (nodes (size L)).map fun _ => 1 := by
  unfold conformal
  apply List.map_congr_left
  intro R hR
  have hn : ∃ θ φ, R = rotor θ φ := by
    unfold nodes at hR
    rw [List.mem_flatMap] at hR
    obtain ⟨i, _, hR⟩ := hR
    rw [List.mem_map] at hR
    obtain ⟨j, _, hR⟩ := hR
    exact ⟨_, _, hR.symm⟩
  obtain ⟨θ, φ, rfl⟩ := hn
  unfold conformalAt
  rw [rest_mass h, rest_momentum h, rVector_spec]
  simp only [Matrix.cons_val]
  have : -(modesOf row 0 0).re / √(4 * Real.pi) ≠ 0 := (div_pos (by linarith [h.energy]) (by positivity)).ne'
  rw [show ∀ x a b c : ℝ, x * 1 - (0 * a + 0 * b + 0 * c) = x by intros; ring, div_self this]

/-! ## One step, for a supermomentum at rest that does not depend on time -/

/-- A real function on the grid. -/
noncomputable def onGrid (L : Int) (c : Int → Int → ℂ) : List ℝ := (nodes (size L)).map fun R => (expansion 0 L c R).re

theorem onGrid_complex {L : Int} {c : Int → Int → ℂ} (h : RealFunction L c) : ((onGrid L c).map fun x : ℝ => (x : ℂ)) = (nodes (size L)).map (expansion 0 L c) := by
  unfold onGrid
  rw [List.map_map]
  exact List.map_congr_left fun R _ => (expansion_real h R).symm

theorem onGrid_modes {map2salm : List ℂ → Int → Int → Row ℂ} (hE : Exact map2salm) {L : Int} (hL : 1 ≤ L) {c : Int → Int → ℂ} (h : RealFunction L c) {ell m : Int} (h0 : 0 ≤ ell) (h1 : ell ≤ L) (hm : |m| ≤ ell) :
    modesOf (map2salm ((onGrid L c).map fun x : ℝ => (x : ℂ)) 0 L) ell m = c ell m := by
  rw [onGrid_complex h]
  exact hE 0 L c ell m hL (by simpa using h0) h1 (abs_le.1 hm).1 (abs_le.1 hm).2

theorem factorD_conj (ell : Int) : conj (factorD ell) = factorD ell := by
  unfold factorD
  split
  · simp
  · simp [map_div₀, Complex.conj_ofNat 4, Complex.conj_ofNat 2]

theorem factorDinv_conj (ell : Int) : conj (factorDinv ell) = factorDinv ell := by
  unfold factorDinv
  split
  · simp
  · simp [map_div₀, Complex.conj_ofNat 4, Complex.conj_ofNat 2]

theorem real_scale {L : Int} {c : Int → Int → ℂ} (h : RealFunction L c) (g : Int → ℂ) (hg : ∀ ell, conj (g ell) = g ell) : RealFunction L fun ell m => c ell m * g ell := by
  intro ell m h0 h1 hm
  simp only
  rw [h ell m h0 h1 hm, map_mul, hg, mul_assoc]

theorem real_add {L : Int} {c d : Int → Int → ℂ} (h : RealFunction L c) (h' : RealFunction L d) : RealFunction L fun ell m => c ell m + d ell m := by
  intro ell m h0 h1 hm
  simp only
  rw [h ell m h0 h1 hm, h' ell m h0 h1 hm, map_add, mul_add]

theorem real_congr {L : Int} {c d : Int → Int → ℂ} (h : RealFunction L c) (e : ∀ ell m, 0 ≤ ell → ell ≤ L → |m| ≤ ell → d ell m = c ell m) : RealFunction L d := by
  intro ell m h0 h1 hm
  rw [e ell m h0 h1 hm, e ell (-m) h0 h1 (by rwa [abs_neg]), h ell m h0 h1 hm]

theorem D_modes (row : Row ℂ) {L ell m : Int} (h1 : ell ≤ L) (hm : |m| ≤ ell) : modesOf (opD row L) ell m = modesOf row ell m * factorD ell := Verif.Props.Superrest.D_get row L ell m (abs_le.1 hm) h1
theorem Dinv_modes (row : Row ℂ) {L ell m : Int} (h1 : ell ≤ L) (hm : |m| ≤ ell) : modesOf (opDinv row L) ell m = modesOf row ell m * factorDinv ell := Verif.Props.Superrest.Dinv_get row L ell m (abs_le.1 hm) h1

theorem mapM_replicate {α β : Type} (f : α → Py β) (n : Nat) (x : α) (y : β) (h : f x = .ok y) : (List.replicate n x).mapM f = .ok (List.replicate n y) := by
  induction n with
  | zero => rfl
  | succ n ih =>
    rw [List.replicate_succ, List.mapM_cons, h, ih]
    rfl

/-- C79: the supermomentum in a supertranslated frame, at rest and without dependence on time: `Ψ - 𝔇α`. -/
theorem moreschi_const {map2salm : List ℂ → Int → Int → Row ℂ} (hE : Exact map2salm) {spline : List ℝ → List ℝ → ℝ → ℝ} (hs : ConstSpline spline) {L : Int} (hL : 1 ≤ L) {psi : MTS} {row : Row ℂ}
    (hp : Constant psi L row) (hr : RealFunction L (modesOf row)) (h0 : AtRest row) {a : Int → Int → ℂ} (ha : RealFunction L a) :
    ∃ r, moreschi map2salm spline psi (onGrid L a) L = .ok r ∧ ∀ ell m, 0 ≤ ell → ell ≤ L → |m| ≤ ell → modesOf r ell m = modesOf row ell m - a ell m * factorD ell := by
  have hlen : (onGrid L a).length = (nodes (size L)).length := by unfold onGrid; rw [List.length_map]
  have g1 : realGrid psi = List.replicate psi.t.length (onGrid L (modesOf row)) := by
    unfold realGrid
    rw [hp.data, List.map_replicate, hp.ellMax, salm_eq, List.map_map]
    rfl
  have g2 : (List.replicate psi.t.length (onGrid L (modesOf row))).mapM (pick (size L) (size psi.ellMax)) = .ok (List.replicate psi.t.length (onGrid L (modesOf row))) := by
    rw [hp.ellMax]
    exact mapM_replicate _ _ _ _ (pick_same _ _)
  have g3 : interp spline psi.t (List.replicate psi.t.length (onGrid L (modesOf row))) (onGrid L a) = onGrid L (modesOf row) := interp_const hs psi.t hp.times _ _ _ hlen
  have g4 : interp spline psi.t (psi.data.map fun row => conformal row L) (onGrid L a) = (nodes (size L)).map fun _ => 1 := by
    rw [hp.data, List.map_replicate, rest_conformal h0]
    exact interp_const hs psi.t hp.times _ _ _ hlen
  set D := opD (map2salm ((onGrid L a).map fun x : ℝ => (x : ℂ)) 0 L) L with hD
  have dm : ∀ ell m, 0 ≤ ell → ell ≤ L → |m| ≤ ell → modesOf D ell m = a ell m * factorD ell := fun ell m q0 q1 qm => by
    rw [hD, D_modes _ q1 qm, onGrid_modes hE hL ha q0 q1 qm]
  have g5 : List.zipWith (fun (x : ℝ × ℝ) (d : ℂ) => ((x.1 : ℂ) - d) / (x.2 : ℂ) ^ 3) ((onGrid L (modesOf row)).zip ((nodes (size L)).map fun _ => 1)) (salm2map D 0 L (size L)) =
      (nodes (size L)).map (expansion 0 L fun ell m => modesOf row ell m - a ell m * factorD ell) := by
    rw [salm_eq]
    unfold onGrid
    rw [List.zip_map', List.zipWith_map, List.zipWith_self]
    apply List.map_congr_left
    intro R _
    dsimp only
    rw [← expansion_real hr, Verif.GridMultiply.expansion_sub, expansion_congr' dm]
    simp
  refine ⟨map2salm ((nodes (size L)).map (expansion 0 L fun ell m => modesOf row ell m - a ell m * factorD ell)) 0 L, ?_, fun ell m q0 q1 qm =>
    hE 0 L _ ell m hL (by simpa using q0) q1 (abs_le.1 qm).1 (abs_le.1 qm).2⟩
  unfold moreschi
  rw [g1, g2]
  show Except.ok (map2salm _ 0 L) = _
  rw [g3, g4, g5]

theorem perturbation_const {map2salm : List ℂ → Int → Int → Row ℂ} (hE : Exact map2salm) {L : Int} (hL : 1 ≤ L) {r : Row ℂ} {M : Mass} {d : Int → Int → ℂ} (hd : RealFunction L d)
    (hM : M.times ((nodes (size L)).map fun _ => 1) = .ok (onGrid L d)) :
    perturbation map2salm r M ((nodes (size L)).map fun _ => 1) L = .ok (onGrid L fun ell m => (modesOf r ell m + d ell m) * factorDinv ell) := by
  unfold perturbation
  rw [hM]
  show Except.ok _ = _
  congr 1
  have e : List.zipWith (fun (z : ℂ) (x : ℝ) => z + x) (salm2map r 0 L (size L)) (onGrid L d) = (nodes (size L)).map (expansion 0 L fun ell m => modesOf r ell m + d ell m) := by
    rw [salm_eq]
    unfold onGrid
    rw [List.zipWith_map, List.zipWith_self]
    apply List.map_congr_left
    intro R _
    rw [← expansion_real hd, expansion_add]
  rw [e, salm_eq, List.map_map]
  unfold onGrid
  apply List.map_congr_left
  intro R _
  show (expansion 0 L _ R).re = _
  congr 1
  refine expansion_congr' (fun ell m q0 q1 qm => ?_) R
  rw [Dinv_modes _ q1 qm]
  congr 1
  exact hE 0 L (fun ell m => modesOf r ell m + d ell m) ell m hL (by simpa using q0) q1 (abs_le.1 qm).1 (abs_le.1 qm).2

theorem onGrid_add (L : Int) (a b : Int → Int → ℂ) : List.zipWith (· + ·) (onGrid L a) (onGrid L b) = onGrid L fun ell m => a ell m + b ell m := by
  unfold onGrid
  rw [List.zipWith_map, List.zipWith_self]
  apply List.map_congr_left
  intro R _
  rw [expansion_add, Complex.add_re]

theorem onGrid_congr {L : Int} {c d : Int → Int → ℂ} (h : ∀ ell m, 0 ≤ ell → ell ≤ L → |m| ≤ ell → c ell m = d ell m) : onGrid L c = onGrid L d := by
  unfold onGrid
  exact List.map_congr_left fun R _ => by rw [expansion_congr' h]

/-! ## The loop -/

theorem lt_inf (e q : Err) (h : e.lt q) : e.lt .inf := by
  cases e <;> cases q <;> simp_all [Err.lt]

/-- A loop in which every pass gives the same error and the same result. -/
theorem iterate_fixed {S B : Type} (step : Nat → S → Py (S × Err)) (out : S → B) (N : Nat) (tol : Err) (e : Err) (P : S → Prop) (b b0 : B)
    (hs : ∀ n s, P s → ∃ s', step (n + 1) s = .ok (s', e) ∧ P s') (ho : ∀ s, P s → out s = b) (fuel : Nat) (i : Nat) (s : S) (hP : P s) (hN : i + 1 + fuel = N) :
    ∃ k st, i + 1 ≤ k ∧ (e.lt tol → k = i + 1) ∧ (¬ e.lt tol → k = N) ∧
      iterate step out N tol fuel { itr := i + 1, err := e, errs := .inf :: List.replicate (i + 1) e, cur := s, best := if e.lt .inf then b else b0 } = .ok st ∧
      st.best = (if e.lt .inf then b else b0) ∧ st.errs = .inf :: List.replicate k e := by
  induction fuel generalizing i s with
  | zero => exact ⟨i + 1, { itr := i + 1, err := e, errs := .inf :: List.replicate (i + 1) e, cur := s, best := if e.lt .inf then b else b0 }, le_rfl, fun _ => rfl, fun _ => by omega, rfl, rfl, rfl⟩
  | succ fuel ih =>
    by_cases ht : e.lt tol
    · refine ⟨i + 1, { itr := i + 1, err := e, errs := .inf :: List.replicate (i + 1) e, cur := s, best := if e.lt .inf then b else b0 }, le_rfl, fun _ => rfl, fun h => absurd ht h, ?_, rfl, rfl⟩
      unfold iterate
      rw [if_neg (fun h => h.2 ht)]
    · obtain ⟨s', h1, h2⟩ := hs i s hP
      obtain ⟨k, st, q1, q2, q3, q4, q5⟩ := ih (i + 1) s' h2 (by omega)
      refine ⟨k, st, by omega, fun h => absurd h ht, q3, ?_, q5⟩
      unfold iterate
      rw [if_pos ⟨by show i + 1 < N; omega, ht⟩]
      show (step (i + 1) s >>= _) = _
      rw [h1, ← q4]
      show iterate step out N tol fuel _ = _
      congr 2
      · show Err.inf :: List.replicate (i + 1) e ++ [e] = _
        rw [List.cons_append, ← List.replicate_succ']
      · rw [ho s' h2]
        by_cases hi : e.lt .inf
        · simp only [if_pos hi, ite_self]
        · simp only [if_neg hi, if_neg fun h => hi (lt_inf _ _ h)]

theorem run_fixed {S B : Type} (step : Nat → S → Py (S × Err)) (out : S → B) (N : Int) (tol : Err) (s0 : S) (b0 : B) (e : Err) (P : S → Prop) (b : B) (h0 : ∃ s, step 0 s0 = .ok (s, e) ∧ P s)
    (hs : ∀ n s, P s → ∃ s', step (n + 1) s = .ok (s', e) ∧ P s') (ho : ∀ s, P s → out s = b) (hN : 0 < N) :
    ∃ k, 1 ≤ k ∧ (e.lt tol → k = 1) ∧ (¬ e.lt tol → k = N.toNat) ∧ run step out N tol s0 b0 = .ok (if e.lt .inf then b else b0, .inf :: List.replicate k e) := by
  obtain ⟨s, h1, h2⟩ := h0
  obtain ⟨n, hn⟩ : ∃ n, N.toNat = n + 1 := ⟨N.toNat - 1, by omega⟩
  obtain ⟨k, st, q1, q2, q3, q4, q5, q6⟩ := iterate_fixed step out N.toNat tol e P b b0 hs ho n 0 s h2 (by omega)
  refine ⟨k, q1, q2, q3, ?_⟩
  unfold run
  rw [show iterate step out N.toNat tol N.toNat { itr := 0, err := .inf, errs := [.inf], cur := s0, best := b0 } = .ok st from ?_]
  · show Except.ok (st.best, st.errs) = _
    rw [q5, q6]
  · conv_lhs => rw [show ∀ x, iterate step out N.toNat tol N.toNat x = iterate step out N.toNat tol (n + 1) x by rw [hn]; intro; rfl]
    unfold iterate
    rw [if_pos ⟨by show 0 < N.toNat; omega, by cases tol <;> simp [Err.lt]⟩]
    show (step 0 s0 >>= _) = _
    rw [h1, ← q4]
    show iterate step out N.toNat tol n _ = _
    congr 2
    simp only [pyMin, List.foldl_nil, ho s h2]

theorem high_index {L i : Int} (h : 4 ≤ i) (h' : i < (L + 1) ^ 2) (hL : 1 ≤ L) : ∃ ell m, 2 ≤ ell ∧ ell ≤ L ∧ |m| ≤ ell ∧ lmIndex ell m 0 = i := by
  have hl := Verif.Props.Modes.LM_length 0 L le_rfl (by omega)
  have hi : i.toNat < (LMRange 0 L).length := by
    have : ((i.toNat : Int)) < ((LMRange 0 L).length : Int) := by rw [hl]; simp only [ne_eq, OfNat.ofNat_ne_zero, not_false_eq_true, zero_pow, sub_zero]; omega
    exact_mod_cast this
  obtain ⟨⟨ell, m⟩, he⟩ : ∃ p, (LMRange 0 L)[i.toNat]? = some p := ⟨_, List.getElem?_eq_getElem hi⟩
  have hx := Verif.Props.Modes.index_LM 0 L le_rfl _ _ _ he
  have hm := (Verif.Props.Modes.mem_LM _ _ _ _).1 (List.mem_of_getElem? he)
  refine ⟨ell, m, ?_, hm.2.1, hm.2.2, by omega⟩
  by_contra hc
  have h1 := abs_le.1 hm.2.2
  have h2 : lmIndex ell m 0 = i := by omega
  have h3 : ell = 0 ∨ ell = 1 := by omega
  unfold lmIndex at h2
  rcases h3 with rfl | rfl <;> omega

theorem norm4_zero {L : Int} (hL : 1 ≤ L) (r : Row ℂ) : norm4 r L = 0 ↔ ∀ ell m, 2 ≤ ell → ell ≤ L → |m| ≤ ell → modesOf r ell m = 0 := by
  have hn : ∀ x ∈ ((pyRange 4 ((L + 1) ^ 2)).map fun i => ‖r i‖ ^ 2), 0 ≤ x := by
    intro x hx
    rw [List.mem_map] at hx
    obtain ⟨i, _, rfl⟩ := hx
    positivity
  unfold norm4
  rw [Real.sqrt_eq_zero (List.sum_nonneg hn)]
  constructor
  · intro h ell m h1 h2 h3
    have h4 := abs_le.1 h3
    have := List.all_zero_of_le_zero_le_of_sum_eq_zero hn h (x := ‖r (lmIndex ell m 0)‖ ^ 2) (List.mem_map.2 ⟨_, by
      rw [mem_pyRange]
      unfold lmIndex
      constructor
      · nlinarith
      · nlinarith, rfl⟩)
    unfold modesOf
    simpa using this
  · intro h
    apply List.sum_eq_zero
    intro x hx
    rw [List.mem_map] at hx
    obtain ⟨i, hi, rfl⟩ := hx
    rw [mem_pyRange] at hi
    obtain ⟨ell, m, h1, h2, h3, h4⟩ := high_index hi.1 hi.2 hL
    have := h ell m h1 h2 h3
    unfold modesOf at this
    rw [h4] at this
    rw [this]
    simp

theorem zero_grid (L : Int) : List.replicate (size L * size L) (0 : ℝ) = onGrid L fun _ _ => 0 := by
  unfold onGrid
  rw [List.eq_replicate_of_mem (l := (nodes (size L)).map _) (a := (0 : ℝ))]
  · rw [List.length_map, nodes_length]
  · intro b hb
    rw [List.mem_map] at hb
    obtain ⟨R, _, rfl⟩ := hb
    simp [expansion]

theorem factorD_low {ell : Int} (h : ell < 2) : factorD ell = 0 := by unfold factorD; rw [if_pos h]
theorem factorDinv_low {ell : Int} (h : ell < 2) : factorDinv ell = 0 := by unfold factorDinv; rw [if_pos h]

/-- What `massFor` and `errorFor` are to give, for the supermomentum `c` to be reached and the error `e`. -/
structure Reach (map2salm : List ℂ → Int → Int → Row ℂ) (spline : List ℝ → List ℝ → ℝ → ℝ) (target : Option MTS) (L : Int) (row : Row ℂ) (c : Int → Int → ℂ) (e : Err) : Prop where
  real : RealFunction L c
  mass : ∀ (a : Int → Int → ℂ) (r : Row ℂ), AtRest r → modesOf r 0 0 = modesOf row 0 0 →
    ∃ M, massFor spline target (onGrid L a) r L = .ok M ∧ M.times ((nodes (size L)).map fun _ => 1) = .ok (onGrid L fun ell m => -c ell m)
  error : ∀ (a : Int → Int → ℂ) (r : Row ℂ), (∀ ell m, 2 ≤ ell → ell ≤ L → |m| ≤ ell → modesOf r ell m = c ell m) → errorFor map2salm spline target (onGrid L a) r L = .ok e

/-- The supertranslation that the loop finds. -/
noncomputable def found (row : Row ℂ) (c : Int → Int → ℂ) (ell m : Int) : ℂ := (modesOf row ell m - c ell m) * factorDinv ell

structure After (L : Int) (row : Row ℂ) (c : Int → Int → ℂ) (v : Vars) : Prop where
  alpha : v.alpha = onGrid L (found row c)
  rest : ∃ r M, v.rest = some (r, M, (nodes (size L)).map fun _ => 1) ∧ (∀ ell m, 0 ≤ ell → ell ≤ L → |m| ≤ ell → modesOf r ell m = if ell < 2 then modesOf row ell m else c ell m) ∧
    M.times ((nodes (size L)).map fun _ => 1) = .ok (onGrid L fun ell m => -c ell m)

section
variable {map2salm : List ℂ → Int → Int → Row ℂ} (hE : Exact map2salm) {spline : List ℝ → List ℝ → ℝ → ℝ} (hs : ConstSpline spline) {L : Int} (hL : 1 ≤ L) {psi : MTS} {row : Row ℂ}
  (hp : Constant psi L row) (hr : RealFunction L (modesOf row)) (h0 : AtRest row) {target : Option MTS} {c : Int → Int → ℂ} {e : Err} (hR : Reach map2salm spline target L row c e)
include hE hs hL hp hr h0 hR

theorem found_real : RealFunction L (found row c) := by
  have hn : RealFunction L fun ell m => -c ell m := fun ell m q0 q1 qm => by
    simp only
    rw [hR.real ell m q0 q1 qm, map_neg, mul_neg]
  exact real_congr (real_scale (real_add hr hn) factorDinv factorDinv_conj) fun ell m _ _ _ => by
    unfold found
    rw [sub_eq_add_neg]

theorem rest_of {r : Row ℂ} (h : ∀ ell m, 0 ≤ ell → ell ≤ L → |m| ≤ ell → modesOf r ell m = if ell < 2 then modesOf row ell m else c ell m) : AtRest r ∧ modesOf r 0 0 = modesOf row 0 0 := by
  have h00 : modesOf r 0 0 = modesOf row 0 0 := by rw [h 0 0 le_rfl (by omega) (by simp), if_pos (by norm_num)]
  refine ⟨⟨by rw [h00]; exact h0.energy, fun m hm => ?_⟩, h00⟩
  rw [h 1 m (by norm_num) hL hm, if_pos (by norm_num)]
  exact h0.momentum m hm

/-- The end of a pass, once the new `alpha` is that of `found`. -/
theorem step_end (a : Int → Int → ℂ) :
    ∃ v, (do
      let psiI ← moreschi map2salm spline psi (onGrid L (found row c)) L
      let M ← massFor spline target (onGrid L a) psiI L
      let e ← errorFor map2salm spline target (onGrid L a) psiI L
      pure (({ alpha := onGrid L (found row c), rest := some (psiI, M, conformal psiI L) } : Vars), e)) = .ok (v, e) ∧ After L row c v := by
  obtain ⟨r, q1, q2⟩ := moreschi_const hE hs hL hp hr h0 (found_real hE hs hL hp hr h0 hR)
  have q3 : ∀ ell m, 0 ≤ ell → ell ≤ L → |m| ≤ ell → modesOf r ell m = if ell < 2 then modesOf row ell m else c ell m := by
    intro ell m p0 p1 pm
    rw [q2 ell m p0 p1 pm]
    unfold found
    split
    · next hl => rw [factorD_low hl]; ring
    · next hl => rw [mul_assoc, mul_comm (factorDinv ell), Verif.Props.Superrest.factors ell hl]; ring
  obtain ⟨q4, q5⟩ := rest_of hE hs hL hp hr h0 hR q3
  obtain ⟨M, q6, q7⟩ := hR.mass a r q4 q5
  have q8 := hR.error a r fun ell m p0 p1 pm => by rw [q3 ell m (by omega) p1 pm, if_neg (by omega)]
  refine ⟨{ alpha := onGrid L (found row c), rest := some (r, M, conformal r L) }, ?_, rfl, r, M, ?_, q3, q7⟩
  · rw [q1]
    show (massFor spline target (onGrid L a) r L >>= _) = _
    rw [q6]
    show (errorFor map2salm spline target (onGrid L a) r L >>= _) = _
    rw [q8]
    rfl
  · rw [rest_conformal q4]

theorem first_step : ∃ v, step map2salm spline psi target L 0 { alpha := List.replicate (size L * size L) 0, rest := none } = .ok (v, e) ∧ After L row c v := by
  have hz := zero_grid L
  obtain ⟨r, q1, q2⟩ := moreschi_const hE hs hL hp hr h0 (a := fun _ _ => 0) (fun ell m _ _ _ => by simp)
  have q3 : AtRest r ∧ modesOf r 0 0 = modesOf row 0 0 := by
    have h00 : modesOf r 0 0 = modesOf row 0 0 := by rw [q2 0 0 le_rfl (by omega) (by simp)]; ring
    refine ⟨⟨by rw [h00]; exact h0.energy, fun m hm => ?_⟩, h00⟩
    rw [q2 1 m (by norm_num) hL hm, h0.momentum m hm]
    ring
  obtain ⟨M, q6, q7⟩ := hR.mass (fun _ _ => 0) r q3.1 q3.2
  have hn : RealFunction L fun ell m => -c ell m := fun ell m q0 q1 qm => by
    simp only
    rw [hR.real ell m q0 q1 qm, map_neg, mul_neg]
  have q8 := perturbation_const hE hL (r := r) hn q7
  have q9 : List.zipWith (· + ·) (onGrid L fun _ _ => 0) (onGrid L fun ell m => (modesOf r ell m + -c ell m) * factorDinv ell) = onGrid L (found row c) := by
    rw [onGrid_add]
    refine onGrid_congr fun ell m p0 p1 pm => ?_
    rw [q2 ell m p0 p1 pm]
    unfold found
    ring
  obtain ⟨v, q10, q11⟩ := step_end hE hs hL hp hr h0 hR fun _ _ => 0
  refine ⟨v, ?_, q11⟩
  rw [← q10]
  unfold step
  simp only [if_true, hz, q1, q6, rest_conformal q3.1, q8, q9, Verif.ok_bind, pure, Except.pure, bind, Except.bind]

theorem later_step (n : Nat) (v : Vars) (h : After L row c v) : ∃ v', step map2salm spline psi target L (n + 1) v = .ok (v', e) ∧ After L row c v' := by
  obtain ⟨q1, r, M, q2, q3, q7⟩ := h
  have hn : RealFunction L fun ell m => -c ell m := fun ell m q0 q1 qm => by
    simp only
    rw [hR.real ell m q0 q1 qm, map_neg, mul_neg]
  have q8 := perturbation_const hE hL (r := r) hn q7
  have q9 : List.zipWith (· + ·) (onGrid L (found row c)) (onGrid L fun ell m => (modesOf r ell m + -c ell m) * factorDinv ell) = onGrid L (found row c) := by
    rw [onGrid_add]
    refine onGrid_congr fun ell m p0 p1 pm => ?_
    rw [q3 ell m p0 p1 pm]
    split
    · next hl => rw [factorDinv_low hl]; ring
    · ring
  obtain ⟨v', q10, q11⟩ := step_end hE hs hL hp hr h0 hR (found row c)
  refine ⟨v', ?_, q11⟩
  rw [← q10]
  unfold step
  simp only [Nat.succ_ne_zero, if_false, q1, q2, q8, q9, Verif.ok_bind, pure, Except.pure, bind, Except.bind]

/-- The loop as a whole. -/
theorem superrest_loop (N : Int) (hN : 0 < N) (tol : Err) : ∃ (T : Verif.SuperrestLoop.Tr) (k : Nat), 1 ≤ k ∧ (e.lt tol → k = 1) ∧ (¬ e.lt tol → k = N.toNat) ∧
    toSuperrest map2salm spline psi target N tol L = .ok (T, .inf :: List.replicate k e) ∧ T.rotation = 1 ∧ T.boost = 0 ∧
    ∀ ell m, 0 ≤ ell → ell ≤ L → |m| ≤ ell → modesOf T.super ell m = if e.lt .inf then found row c ell m else 0 := by
  obtain ⟨k, q1, q2, q3, q4⟩ := run_fixed (step map2salm spline psi target L) Vars.alpha N tol { alpha := List.replicate (size L * size L) 0, rest := none } (List.replicate (size L * size L) 0) e
    (After L row c) (onGrid L (found row c)) (first_step hE hs hL hp hr h0 hR) (later_step hE hs hL hp hr h0 hR) (fun v hv => hv.alpha) hN
  have hb : (if e.lt .inf then onGrid L (found row c) else List.replicate (size L * size L) 0) = onGrid L (fun ell m => if e.lt .inf then found row c ell m else 0) := by
    split
    · rfl
    · exact zero_grid L
  have hreal : RealFunction L fun ell m => if e.lt .inf then found row c ell m else 0 := by
    by_cases he : e.lt .inf
    · simp only [if_pos he]
      exact found_real hE hs hL hp hr h0 hR
    · simp only [if_neg he]
      exact fun ell m _ _ _ => by simp
  refine ⟨{ Verif.SuperrestLoop.Tr.one with super := fun i => if 0 ≤ i ∧ i < 4 then 0 else map2salm ((onGrid L fun ell m => if e.lt .inf then found row c ell m else 0).map fun x : ℝ => (x : ℂ)) 0 L i }, k, q1, q2, q3, ?_, rfl, rfl, ?_⟩
  · unfold toSuperrest Verif.SuperrestLoop.supertranslation
    rw [q4, hb]
    rfl
  · intro ell m p0 p1 pm
    have h4 := abs_le.1 pm
    have hm := onGrid_modes hE hL hreal p0 p1 pm
    by_cases hl : ell < 2
    · have : 0 ≤ lmIndex ell m 0 ∧ lmIndex ell m 0 < 4 := by
        have : ell = 0 ∨ ell = 1 := by omega
        unfold lmIndex
        rcases this with rfl | rfl <;> omega
      show (if 0 ≤ lmIndex ell m 0 ∧ lmIndex ell m 0 < 4 then (0 : ℂ) else _) = _
      rw [if_pos this]
      unfold found
      rw [factorDinv_low hl, mul_zero, ite_self]
    · have : ¬ (0 ≤ lmIndex ell m 0 ∧ lmIndex ell m 0 < 4) := by
        unfold lmIndex
        intro h
        nlinarith
      show (if 0 ≤ lmIndex ell m 0 ∧ lmIndex ell m 0 < 4 then (0 : ℂ) else _) = _
      rw [if_neg this]
      exact hm

end

/-- Without a target, the supermomentum to be reached is that of the rest mass alone. -/
theorem reach_rest (map2salm : List ℂ → Int → Int → Row ℂ) (spline : List ℝ → List ℝ → ℝ → ℝ) {L : Int} (hL : 1 ≤ L) {row : Row ℂ} (hr : RealFunction L (modesOf row)) :
    Reach map2salm spline none L row (fun ell m => if ell = 0 ∧ m = 0 then modesOf row 0 0 else 0) (.fin 0) := by
  have h00 : modesOf row 0 0 = (starRingEnd ℂ) (modesOf row 0 0) := by simpa using hr 0 0 le_rfl (by omega) (by simp)
  refine ⟨?_, ?_, ?_⟩
  · intro ell m _ _ _
    simp only [neg_eq_zero]
    split
    · next h => rw [← h00, h.2]; simp
    · simp
  · intro a r hr h
    refine ⟨_, rfl, ?_⟩
    unfold Mass.times
    simp only
    congr 1
    unfold onGrid
    rw [List.map_map]
    apply List.map_congr_left
    intro R _
    show restMass r * 1 ^ 3 = _
    rw [rest_mass hr, h]
    have := Verif.Props.GridMultiply.single L 0 0 le_rfl (by omega) (by simp) le_rfl 0 (-modesOf row 0 0) R
    rw [show (fun ell m : Int => -(if ell = 0 ∧ m = 0 then modesOf row 0 0 else 0)) = fun a b => if a = 0 ∧ b = 0 then -modesOf row 0 0 else 0 by funext a b; split <;> simp, this, Verif.Sphere.Y000,
      Complex.re_mul_ofReal]
    simp
    ring
  · intro a r h
    unfold errorFor
    simp only
    rw [(norm4_zero hL r).2 fun ell m h1 h2 h3 => by rw [h ell m h1 h2 h3, if_neg (by omega)]]

/-- C79.  For a real supermomentum at rest that does not depend on time, one pass of the loop gives the supertranslation `α` with `𝔇α = Ψ` for `ell ≥ 2`, and no modes of translations; the error is 0 and
the loop stops. -/
theorem superrest_converges {map2salm : List ℂ → Int → Int → Row ℂ} (hE : Exact map2salm) {spline : List ℝ → List ℝ → ℝ → ℝ} (hs : ConstSpline spline) {L : Int} (hL : 1 ≤ L) {psi : MTS} {row : Row ℂ}
    (hp : Constant psi L row) (hr : RealFunction L (modesOf row)) (h0 : AtRest row) (N : Int) (hN : 0 < N) (tol : ℝ) (ht : 0 < tol) :
    ∃ T : Verif.SuperrestLoop.Tr, toSuperrest map2salm spline psi none N (.fin tol) L = .ok (T, [.inf, .fin 0]) ∧ T.rotation = 1 ∧ T.boost = 0 ∧
      ∀ ell m : Int, 0 ≤ ell → ell ≤ L → |m| ≤ ell → modesOf T.super ell m = if ell < 2 then 0 else 4 * modesOf row ell m / ((ell + 2) * (ell + 1) * ell * (ell - 1)) := by
  obtain ⟨T, k, _, q2, _, q4, q5, q6, q7⟩ := superrest_loop hE hs hL hp hr h0 (reach_rest map2salm spline hL hr) N hN (.fin tol)
  rw [q2 (by simpa [Err.lt] using ht)] at q4
  refine ⟨T, q4, q5, q6, fun ell m p0 p1 pm => ?_⟩
  rw [q7 ell m p0 p1 pm, if_pos (show (Err.fin 0).lt .inf from trivial)]
  unfold found factorDinv
  by_cases hl : ell < 2
  · simp [hl]
  · simp only [if_neg hl, if_neg (show ¬ (ell = 0 ∧ m = 0) by omega)]
    ring

/-- What the target gives. -/
theorem target_interp {spline : List ℝ → List ℝ → ℝ → ℝ} (hs : ConstSpline spline) {L : Int} {T : MTS} {trow : Row ℂ} (hT : Constant T L trow) (a : Int → Int → ℂ) :
    targetInterp spline T (onGrid L a) L = .ok (onGrid L (modesOf trow)) := by
  have g1 : realGrid T = List.replicate T.t.length (onGrid L (modesOf trow)) := by
    unfold realGrid
    rw [hT.data, List.map_replicate, hT.ellMax, salm_eq, List.map_map]
    rfl
  unfold targetInterp
  rw [hT.ellMax, g1]
  unfold onGrid
  rw [pick_same]
  show Except.ok _ = _
  rw [interp_const hs T.t hT.times _ _ _ (by rw [List.length_map])]

theorem reach_target {map2salm : List ℂ → Int → Int → Row ℂ} (hE : Exact map2salm) {spline : List ℝ → List ℝ → ℝ → ℝ} (hs : ConstSpline spline) {L : Int} (hL : 1 ≤ L) (row : Row ℂ) {T : MTS} {trow : Row ℂ}
    (hT : Constant T L trow) (hr : RealFunction L (modesOf trow)) (e : Err)
    (he : e = .fin 0 ∧ (∃ ell m, 2 ≤ ell ∧ ell ≤ L ∧ |m| ≤ ell ∧ modesOf trow ell m ≠ 0) ∨ e = .nan ∧ ∀ ell m, 2 ≤ ell → ell ≤ L → |m| ≤ ell → modesOf trow ell m = 0) :
    Reach map2salm spline (some T) L row (modesOf trow) e := by
  refine ⟨hr, ?_, ?_⟩
  · intro a r _ _
    refine ⟨_, by unfold massFor; simp only; rw [target_interp hs hT]; rfl, ?_⟩
    unfold Mass.times
    simp only
    rw [if_pos (by simp [onGrid])]
    congr 1
    unfold onGrid
    rw [List.map_map, List.zipWith_map, List.zipWith_self]
    apply List.map_congr_left
    intro R _
    have : expansion 0 L (fun ell m => -modesOf trow ell m) R = -expansion 0 L (modesOf trow) R := by
      unfold expansion
      simp
    rw [this]
    simp
  · intro a r h
    unfold errorFor
    simp only
    rw [target_interp hs hT]
    show Except.ok (quot _ _) = _
    have hm : ∀ ell m, 2 ≤ ell → ell ≤ L → |m| ≤ ell → modesOf (map2salm ((onGrid L (modesOf trow)).map fun x : ℝ => (x : ℂ)) 0 L) ell m = modesOf trow ell m := fun ell m p0 p1 pm => onGrid_modes hE hL hr (by omega) p1 pm
    have hz : norm4 (fun i => r i - map2salm ((onGrid L (modesOf trow)).map fun x : ℝ => (x : ℂ)) 0 L i) L = 0 := by
      rw [norm4_zero hL]
      intro ell m p0 p1 pm
      show modesOf r ell m - modesOf (map2salm _ 0 L) ell m = 0
      rw [hm ell m p0 p1 pm, h ell m p0 p1 pm, sub_self]
    rw [hz]
    unfold quot
    rcases he with ⟨rfl, ell, m, p0, p1, pm, hne⟩ | ⟨rfl, hne⟩
    · rw [if_neg, zero_div]
      intro hc
      exact hne ((hm ell m p0 p1 pm).symm.trans ((norm4_zero hL _).1 hc ell m p0 p1 pm))
    · rw [if_pos ((norm4_zero hL _).2 fun ell m p0 p1 pm => (hm ell m p0 p1 pm).trans (hne ell m p0 p1 pm)), if_pos rfl]

/-- C79.  With a target whose supermomentum does not depend on time and has modes with `ell ≥ 2`, one pass gives the supertranslation with `𝔇α = Ψ - Ψ_target` for `ell ≥ 2`. -/
theorem target_converges {map2salm : List ℂ → Int → Int → Row ℂ} (hE : Exact map2salm) {spline : List ℝ → List ℝ → ℝ → ℝ} (hs : ConstSpline spline) {L : Int} (hL : 1 ≤ L) {psi : MTS} {row : Row ℂ}
    (hp : Constant psi L row) (hr : RealFunction L (modesOf row)) (h0 : AtRest row) {P : MTS} {trow : Row ℂ} (hT : Constant P L trow) (hrT : RealFunction L (modesOf trow))
    (hne : ∃ ell m, 2 ≤ ell ∧ ell ≤ L ∧ |m| ≤ ell ∧ modesOf trow ell m ≠ 0) (N : Int) (hN : 0 < N) (tol : ℝ) (ht : 0 < tol) :
    ∃ T : Verif.SuperrestLoop.Tr, toSuperrest map2salm spline psi (some P) N (.fin tol) L = .ok (T, [.inf, .fin 0]) ∧ T.rotation = 1 ∧ T.boost = 0 ∧
      ∀ ell m : Int, 0 ≤ ell → ell ≤ L → |m| ≤ ell → modesOf T.super ell m = if ell < 2 then 0 else 4 * (modesOf row ell m - modesOf trow ell m) / ((ell + 2) * (ell + 1) * ell * (ell - 1)) := by
  obtain ⟨T, k, _, q2, _, q4, q5, q6, q7⟩ := superrest_loop hE hs hL hp hr h0 (reach_target (map2salm := map2salm) hE hs hL row hT hrT _ (Or.inl ⟨rfl, hne⟩)) N hN (.fin tol)
  rw [q2 (by simpa [Err.lt] using ht)] at q4
  refine ⟨T, q4, q5, q6, fun ell m p0 p1 pm => ?_⟩
  rw [q7 ell m p0 p1 pm, if_pos (show (Err.fin 0).lt .inf from trivial)]
  unfold found factorDinv
  by_cases hl : ell < 2
  · simp [hl]
  · simp only [if_neg hl]
    ring

/-- C79 is violated for a target that is already in its own superrest frame: the error is nan in each pass, all of the passes are made, and the supertranslation that is returned is 0, whatever the supermomentum
of the data. -/
theorem target_at_rest_nan {map2salm : List ℂ → Int → Int → Row ℂ} (hE : Exact map2salm) {spline : List ℝ → List ℝ → ℝ → ℝ} (hs : ConstSpline spline) {L : Int} (hL : 1 ≤ L) {psi : MTS} {row : Row ℂ}
    (hp : Constant psi L row) (hr : RealFunction L (modesOf row)) (h0 : AtRest row) {P : MTS} {trow : Row ℂ} (hT : Constant P L trow) (hrT : RealFunction L (modesOf trow))
    (hz : ∀ ell m, 2 ≤ ell → ell ≤ L → |m| ≤ ell → modesOf trow ell m = 0) (N : Int) (hN : 0 < N) (tol : Err) :
    ∃ T : Verif.SuperrestLoop.Tr, toSuperrest map2salm spline psi (some P) N tol L = .ok (T, .inf :: List.replicate N.toNat .nan) ∧ ∀ ell m : Int, 0 ≤ ell → ell ≤ L → |m| ≤ ell → modesOf T.super ell m = 0 := by
  obtain ⟨T, k, _, _, q3, q4, q5, q6, q7⟩ := superrest_loop hE hs hL hp hr h0 (reach_target (map2salm := map2salm) hE hs hL row hT hrT _ (Or.inr ⟨rfl, hz⟩)) N hN tol
  rw [q3 (by simp [Err.lt])] at q4
  refine ⟨T, q4, fun ell m p0 p1 pm => ?_⟩
  rw [q7 ell m p0 p1 pm, if_neg (by simp [Err.lt])]

/-- C79.  In the frame that was found, the supermomentum has no modes with `ell ≥ 2`, and the same energy and momentum. -/
theorem superrest_frame {map2salm : List ℂ → Int → Int → Row ℂ} (hE : Exact map2salm) {spline : List ℝ → List ℝ → ℝ → ℝ} (hs : ConstSpline spline) {L : Int} (hL : 1 ≤ L) {psi : MTS} {row : Row ℂ}
    (hp : Constant psi L row) (hr : RealFunction L (modesOf row)) (h0 : AtRest row) (N : Int) (hN : 0 < N) (tol : ℝ) (ht : 0 < tol) :
    ∃ (T : Verif.SuperrestLoop.Tr) (r : Row ℂ), toSuperrest map2salm spline psi none N (.fin tol) L = .ok (T, [.inf, .fin 0]) ∧
      moreschi map2salm spline psi (onGrid L (modesOf T.super)) L = .ok r ∧
      ∀ ell m, 0 ≤ ell → ell ≤ L → |m| ≤ ell → modesOf r ell m = if ell < 2 then modesOf row ell m else 0 := by
  obtain ⟨T, k, _, q2, _, q4, q5, q6, q7⟩ := superrest_loop hE hs hL hp hr h0 (reach_rest map2salm spline hL hr) N hN (.fin tol)
  rw [q2 (by simpa [Err.lt] using ht)] at q4
  have hf := found_real hE hs hL hp hr h0 (reach_rest map2salm spline hL hr)
  obtain ⟨r, g1, g2⟩ := moreschi_const hE hs hL hp hr h0 hf
  refine ⟨T, r, q4, ?_, fun ell m p0 p1 pm => ?_⟩
  · have : onGrid L (modesOf T.super) = onGrid L (found row fun ell m => if ell = 0 ∧ m = 0 then modesOf row 0 0 else 0) :=
      onGrid_congr fun ell m p0 p1 pm => by rw [q7 ell m p0 p1 pm, if_pos (show (Err.fin 0).lt .inf from trivial)]
    rw [this, g1]
  · rw [g2 ell m p0 p1 pm]
    unfold found
    split
    · next hl => rw [factorD_low hl]; ring
    · next hl =>
      rw [mul_assoc, mul_comm (factorDinv ell), Verif.Props.Superrest.factors ell hl]
      simp only [if_neg (show ¬ (ell = 0 ∧ m = 0) by omega)]
      ring

/-! ## Moving and changing supermomenta -/

theorem interp_affine {spline : List ℝ → List ℝ → ℝ → ℝ} (hs : AffineSpline spline) {t : List ℝ} (ht : 2 ≤ t.length) (hi : t.Pairwise (· < ·)) (l : List (Quaternion ℝ)) (A B F : Quaternion ℝ → ℝ) :
    interp spline t (t.map fun u => l.map fun R => A R + u * B R) (l.map F) = l.map fun R => A R + F R * B R := by
  unfold interp
  rw [List.length_map]
  apply List.ext_getElem
  · simp
  · intro i h1 h2
    simp only [List.length_map, List.length_range] at h1
    simp only [List.getElem_map, List.getElem_range, List.map_map]
    rw [show ((fun r : List ℝ => r.getD i 0) ∘ fun u => l.map fun R => A R + u * B R) = fun u => A l[i] + u * B l[i] by
      funext u
      simp [List.getD_eq_getElem?_getD, h1], hs t _ _ _ ht hi]
    simp [List.getD_eq_getElem?_getD, h1]

theorem conformal_congr {r r' : Row ℂ} (h : ∀ i, 0 ≤ i → i < 4 → r i = r' i) (L : Int) : conformal r L = conformal r' L := by
  have : momentum r = momentum r' := by
    unfold momentum
    rw [h 0 (by norm_num) (by norm_num), h 1 (by norm_num) (by norm_num), h 2 (by norm_num) (by norm_num), h 3 (by norm_num) (by norm_num)]
  unfold conformal conformalAt restMass
  rw [this]

theorem low_zero {row : Row ℂ} (h : ∀ ell m, 0 ≤ ell → ell ≤ 1 → |m| ≤ ell → modesOf row ell m = 0) : ∀ i, 0 ≤ i → i < 4 → row i = 0 := by
  intro i h0 h1
  have : i = 0 ∨ i = 1 ∨ i = 2 ∨ i = 3 := by omega
  rcases this with rfl | rfl | rfl | rfl
  · simpa [modesOf, lmIndex] using h 0 0 (by norm_num) (by norm_num) (by norm_num)
  · simpa [modesOf, lmIndex] using h 1 (-1) (by norm_num) (by norm_num) (by norm_num)
  · simpa [modesOf, lmIndex] using h 1 0 (by norm_num) (by norm_num) (by norm_num)
  · simpa [modesOf, lmIndex] using h 1 1 (by norm_num) (by norm_num) (by norm_num)

theorem affine_grid {psi : MTS} {L : Int} {row0 row1 : Row ℂ} (hp : Affine psi L row0 row1) :
    realGrid psi = psi.t.map fun u => (nodes (size L)).map fun R => (expansion 0 L (modesOf row0) R).re + u * (expansion 0 L (modesOf row1) R).re := by
  unfold realGrid
  rw [hp.data, hp.ellMax, List.map_map]
  apply List.map_congr_left
  intro u _
  simp only [Function.comp]
  rw [salm_eq, List.map_map]
  apply List.map_congr_left
  intro R _
  simp only [Function.comp]
  have : modesOf (fun i => row0 i + (u : ℂ) * row1 i) = fun ell m => modesOf row0 ell m + modesOf (fun i => (u : ℂ) * row1 i) ell m := rfl
  rw [this, expansion_add, Complex.add_re]
  congr 1
  rw [show expansion 0 L (modesOf fun i => (u : ℂ) * row1 i) R = (u : ℂ) * expansion 0 L (modesOf row1) R by
    unfold expansion modesOf
    rw [Finset.mul_sum]
    refine Finset.sum_congr rfl fun ell _ => ?_
    rw [Finset.mul_sum]
    exact Finset.sum_congr rfl fun m _ => by ring, Complex.re_ofReal_mul]

theorem mapM_map_ok {α β γ : Type} (f : α → Py β) (g : γ → α) (k : γ → β) (h : ∀ x, f (g x) = .ok (k x)) (l : List γ) : (l.map g).mapM f = .ok (l.map k) := by
  induction l with
  | nil => rfl
  | cons x l ih =>
    rw [List.map_cons, List.mapM_cons, h, ih]
    rfl

/-- C79.  The supermomentum in the frame of `α`: `Ψ` at the time `α`, minus `𝔇α`, divided by the third power of the conformal factor, if that is a function with modes up to `L`. -/
theorem moreschi_grid {map2salm : List ℂ → Int → Int → Row ℂ} (hE : Exact map2salm) {spline : List ℝ → List ℝ → ℝ → ℝ} (hs : AffineSpline spline) {L : Int} (hL : 1 ≤ L) {psi : MTS} {row0 row1 : Row ℂ}
    (hp : Affine psi L row0 row1) {a c : Int → Int → ℂ} (ha : RealFunction L a)
    (hc : ∀ R ∈ nodes (size L), expansion 0 L c R = (((expansion 0 L (modesOf row0) R).re + (expansion 0 L a R).re * (expansion 0 L (modesOf row1) R).re : ℝ) - expansion 0 L (fun ell m => a ell m * factorD ell) R) / (conformalAt row0 R : ℂ) ^ 3) :
    ∃ r, moreschi map2salm spline psi (onGrid L a) L = .ok r ∧ ∀ ell m, 0 ≤ ell → ell ≤ L → |m| ≤ ell → modesOf r ell m = c ell m := by
  have g2 : (psi.t.map fun u => (nodes (size L)).map fun R => (expansion 0 L (modesOf row0) R).re + u * (expansion 0 L (modesOf row1) R).re).mapM (pick (size L) (size psi.ellMax)) =
      .ok (psi.t.map fun u => (nodes (size L)).map fun R => (expansion 0 L (modesOf row0) R).re + u * (expansion 0 L (modesOf row1) R).re) := by
    rw [hp.ellMax]
    exact mapM_map_ok _ _ _ (fun u => pick_same _ _) _
  have g3 := interp_affine hs hp.times hp.increasing (nodes (size L)) (fun R => (expansion 0 L (modesOf row0) R).re) (fun R => (expansion 0 L (modesOf row1) R).re) (fun R => (expansion 0 L a R).re)
  have hlow := low_zero hp.momentum
  have g4 : interp spline psi.t (psi.data.map fun row => conformal row L) (onGrid L a) = (nodes (size L)).map (conformalAt row0) := by
    have := interp_affine hs hp.times hp.increasing (nodes (size L)) (conformalAt row0) (fun _ => 0) (fun R => (expansion 0 L a R).re)
    simp only [mul_zero, add_zero] at this
    rw [hp.data, List.map_map]
    unfold onGrid
    rw [show ((fun row => conformal row L) ∘ fun (u : ℝ) i => row0 i + (u : ℂ) * row1 i) = fun _ => (nodes (size L)).map (conformalAt row0) by
      funext u
      exact conformal_congr (fun i h0 h1 => by simp only [hlow i h0 h1, mul_zero, add_zero]) L]
    exact this
  set D := opD (map2salm ((onGrid L a).map fun x : ℝ => (x : ℂ)) 0 L) L with hD
  have dm : ∀ ell m, 0 ≤ ell → ell ≤ L → |m| ≤ ell → modesOf D ell m = a ell m * factorD ell := fun ell m q0 q1 qm => by
    rw [hD, D_modes _ q1 qm, onGrid_modes hE hL ha q0 q1 qm]
  refine ⟨map2salm ((nodes (size L)).map (expansion 0 L c)) 0 L, ?_, fun ell m q0 q1 qm => hE 0 L _ ell m hL (by simpa using q0) q1 (abs_le.1 qm).1 (abs_le.1 qm).2⟩
  unfold moreschi
  rw [affine_grid hp, g2]
  show Except.ok (map2salm _ 0 L) = _
  rw [g4, ← hD]
  unfold onGrid at *
  rw [g3, salm_eq, List.zip_map', List.zipWith_map, List.zipWith_self]
  congr 2
  apply List.map_congr_left
  intro R hR
  rw [hc R hR, expansion_congr' dm]

/-- C79.  The change of the supertranslation: `𝔇⁻¹ (Ψ + M K³)`, if `Ψ + M K³` is a function with modes up to `L`. -/
theorem perturbation_grid {map2salm : List ℂ → Int → Int → Row ℂ} (hE : Exact map2salm) {L : Int} (hL : 1 ≤ L) (r : Row ℂ) (M : Mass) (Mf K : Quaternion ℝ → ℝ) (hM : M = .array ((nodes (size L)).map Mf) ∨ ∃ x, M = .number x ∧ ∀ R, Mf R = x)
    {c : Int → Int → ℂ} (hc : ∀ R ∈ nodes (size L), expansion 0 L c R = expansion 0 L (modesOf r) R + (Mf R * K R ^ 3 : ℝ)) :
    perturbation map2salm r M ((nodes (size L)).map K) L = .ok (onGrid L fun ell m => c ell m * factorDinv ell) := by
  have ht : M.times ((nodes (size L)).map K) = .ok ((nodes (size L)).map fun R => Mf R * K R ^ 3) := by
    rcases hM with rfl | ⟨x, rfl, hx⟩
    · unfold Mass.times
      simp only
      rw [if_pos (by simp), List.zipWith_map, List.zipWith_self]
    · unfold Mass.times
      simp only [List.map_map]
      congr 1
      apply List.map_congr_left
      intro R _
      simp only [Function.comp, hx]
  unfold perturbation
  rw [ht]
  show Except.ok _ = _
  congr 1
  rw [salm_eq r, List.zipWith_map, List.zipWith_self, salm_eq, List.map_map]
  unfold onGrid
  apply List.map_congr_left
  intro R _
  show (expansion 0 L _ R).re = _
  congr 1
  refine expansion_congr' (fun ell m q0 q1 qm => ?_) R
  rw [Dinv_modes _ q1 qm]
  congr 1
  rw [show ((nodes (size L)).map fun R => expansion 0 L (modesOf r) R + ((Mf R * K R ^ 3 : ℝ) : ℂ)) = (nodes (size L)).map (expansion 0 L c) from List.map_congr_left fun R hR => (hc R hR).symm]
  exact hE 0 L c ell m hL (by simpa using q0) q1 (abs_le.1 qm).1 (abs_le.1 qm).2

/-- C79.  The supermomentum of the target is taken at the time `α` of the pass before. -/
theorem target_behind {spline : List ℝ → List ℝ → ℝ → ℝ} (hs : AffineSpline spline) {L : Int} {T : MTS} {row0 row1 : Row ℂ} (hT : Affine T L row0 row1) (a : Int → Int → ℂ) (psiI : Row ℂ) :
    massFor spline (some T) (onGrid L a) psiI L = .ok (.array ((nodes (size L)).map fun R => -((expansion 0 L (modesOf row0) R).re + (expansion 0 L a R).re * (expansion 0 L (modesOf row1) R).re))) := by
  unfold massFor targetInterp
  simp only
  rw [hT.ellMax, affine_grid hT]
  unfold onGrid
  rw [pick_same]
  show Except.ok (Mass.array _) = _
  rw [interp_affine hs hT.times hT.increasing, List.map_map]
  rfl

/-- C79.  What a pass leaves behind: the supermomentum in the frame of the new `α`, and the mass and the error for the target at the time of the `α` of the pass before. -/
theorem step_behind (map2salm : List ℂ → Int → Int → Row ℂ) (spline : List ℝ → List ℝ → ℝ → ℝ) (psi : MTS) (target : Option MTS) (L : Int) (n : Nat) (v v' : Vars) (e : Err)
    (h : step map2salm spline psi target L n v = .ok (v', e)) :
    ∃ r M, v'.rest = some (r, M, conformal r L) ∧ moreschi map2salm spline psi v'.alpha L = .ok r ∧ massFor spline target v.alpha r L = .ok M ∧ errorFor map2salm spline target v.alpha r L = .ok e := by
  have key : ∀ x : Py (List ℝ), (x >>= fun p => (moreschi map2salm spline psi (List.zipWith (· + ·) v.alpha p) L >>= fun r => massFor spline target v.alpha r L >>= fun M =>
        errorFor map2salm spline target v.alpha r L >>= fun e => pure (({ alpha := List.zipWith (· + ·) v.alpha p, rest := some (r, M, conformal r L) } : Vars), e))) = .ok (v', e) →
      ∃ r M, v'.rest = some (r, M, conformal r L) ∧ moreschi map2salm spline psi v'.alpha L = .ok r ∧ massFor spline target v.alpha r L = .ok M ∧ errorFor map2salm spline target v.alpha r L = .ok e := by
    intro x h
    cases x with
    | error _ => exact absurd h (by simp [bind, Except.bind])
    | ok p =>
      simp only [bind, Except.bind] at h
      split at h
      · simp at h
      next r hr =>
      split at h
      · simp at h
      next M hM =>
      split at h
      · simp at h
      next e' he =>
      simp only [pure, Except.pure, Except.ok.injEq, Prod.mk.injEq] at h
      obtain ⟨rfl, rfl⟩ := h
      exact ⟨r, M, rfl, hr, hM, he⟩
  unfold step at h
  by_cases hn : n = 0
  · simp only [if_pos hn] at h
    cases hm : moreschi map2salm spline psi v.alpha L with
    | error _ => rw [hm] at h; exact absurd h (by simp [bind, Except.bind])
    | ok r =>
      rw [hm] at h
      cases hM : massFor spline target v.alpha r L with
      | error _ => simp only [Verif.ok_bind, hM] at h; exact absurd h (by simp [bind, Except.bind])
      | ok M =>
        simp only [Verif.ok_bind, hM] at h
        exact key _ h
  · simp only [if_neg hn] at h
    cases hv : v.rest with
    | none => rw [hv] at h; exact absurd h (by simp [bind, Except.bind])
    | some x =>
      rw [hv] at h
      exact key _ h

/-! ## Other sizes -/

/-- C79 is violated if `ell_max` is larger than that of the supermomentum: `IndexError`. -/
theorem larger_ell_max (map2salm : List ℂ → Int → Int → Row ℂ) (spline : List ℝ → List ℝ → ℝ → ℝ) (psi : MTS) (alpha : List ℝ) (L : Int) (h0 : 0 ≤ psi.ellMax) (h : psi.ellMax < L) (hd : psi.data ≠ []) :
    moreschi map2salm spline psi alpha L = .error .indexError := by
  unfold moreschi realGrid
  obtain ⟨x, l, e⟩ := List.exists_cons_of_ne_nil hd
  have hp : ∀ g, pick (size L) (size psi.ellMax) g = .error .indexError := fun g => by
    unfold pick
    rw [if_neg (by unfold size; omega)]
  simp only [e, List.map_cons, List.mapM_cons, hp]
  rfl

/-- The cosine of the angle to the z axis. -/
noncomputable def cosTheta (R : Quaternion ℝ) : ℝ := 1 - 2 * (R.imI ^ 2 + R.imJ ^ 2)

theorem cosTheta_node (n i j : Nat) : cosTheta (node n i j) = Real.cos (Real.pi * i / ((n : ℝ) - 1)) := by
  unfold cosTheta node
  generalize Real.pi * i / ((n : ℝ) - 1) = θ
  generalize 2 * Real.pi * j / (n : ℝ) = φ
  have h1 : (rotor θ φ).imI = -(Real.sin (φ / 2) * Real.sin (θ / 2)) := by simp [rotor, Quaternion.imI_mul]
  have h2 : (rotor θ φ).imJ = Real.cos (φ / 2) * Real.sin (θ / 2) := by simp [rotor, Quaternion.imJ_mul]
  rw [h1, h2]
  have h3 := Real.sin_sq_add_cos_sq (φ / 2)
  have h4 : Real.cos θ = 1 - 2 * Real.sin (θ / 2) ^ 2 := by
    have := Real.cos_two_mul (θ / 2)
    rw [show 2 * (θ / 2) = θ by ring] at this
    have h5 := Real.sin_sq_add_cos_sq (θ / 2)
    linarith
  rw [h4]
  linear_combination -2 * Real.sin (θ / 2) ^ 2 * h3

/-- C79 is violated if `ell_max` is smaller than that of the supermomentum: what is used as the value in the last direction of the grid, the south pole, is the value in a direction to the north of it. -/
theorem smaller_ell_max (n n' : Nat) (hn : 2 ≤ n) (h : n < n') : ∃ g x, pick n n' ((nodes n').map cosTheta) = .ok g ∧ g[(n - 1) * n]? = some x ∧ cosTheta (node n (n - 1) 0) = -1 ∧ -1 < x := by
  refine ⟨_, _, pick_map n n' cosTheta h.le, flat_get n n (fun i j => cosTheta (node n' i j)) (n - 1) 0 (by omega) (by omega), ?_, ?_⟩
  · rw [cosTheta_node, Nat.cast_sub (by omega), Nat.cast_one, mul_div_assoc, div_self, mul_one, Real.cos_pi]
    have : (2 : ℝ) ≤ n := by exact_mod_cast hn
    linarith
  · rw [cosTheta_node, ← Real.cos_pi]
    have h2 : (2 : ℝ) ≤ n := by exact_mod_cast hn
    have h3 : (n : ℝ) + 1 ≤ n' := by exact_mod_cast h
    have h4 : (0 : ℝ) < (n' : ℝ) - 1 := by linarith
    have h5 : ((n - 1 : Nat) : ℝ) = n - 1 := by rw [Nat.cast_sub (by omega), Nat.cast_one]
    apply Real.cos_lt_cos_of_nonneg_of_le_pi
    · rw [h5]
      exact div_nonneg (mul_nonneg Real.pi_pos.le (by linarith)) h4.le
    · exact le_rfl
    · rw [h5, div_lt_iff₀ h4]
      exact mul_lt_mul_of_pos_left (by linarith) Real.pi_pos

/-! ## Non-vacuity -/

/-- Rest mass, and a mode (2,0). -/
noncomputable def bump : Row ℂ := fun i => if i = 0 then -3 else if i = 6 then 5 else 0

/-- Two times. -/
noncomputable def bumpSeries : MTS := { t := [0, 1], s := 0, ellMax := 2, data := [bump, bump] }

example : AtRest bump := ⟨by norm_num [modesOf, bump, lmIndex], by
  intro m hm
  rw [abs_le] at hm
  have : m = -1 ∨ m = 0 ∨ m = 1 := by omega
  rcases this with rfl | rfl | rfl <;> simp [modesOf, bump, lmIndex]⟩

example : Constant bumpSeries 2 bump := ⟨rfl, rfl, by simp [bumpSeries]⟩

example : RealFunction 2 (modesOf bump) := by
  intro ell m h0 h1 hm
  rw [abs_le] at hm
  have : ell = 0 ∨ ell = 1 ∨ ell = 2 := by omega
  rcases this with rfl | rfl | rfl
  · obtain rfl : m = 0 := by omega
    simp [modesOf, bump, lmIndex, Complex.conj_ofNat 3]
  · have : m = -1 ∨ m = 0 ∨ m = 1 := by omega
    rcases this with rfl | rfl | rfl <;> simp [modesOf, bump, lmIndex]
  · have : m = -2 ∨ m = -1 ∨ m = 0 ∨ m = 1 ∨ m = 2 := by omega
    rcases this with rfl | rfl | rfl | rfl | rfl <;> simp [modesOf, bump, lmIndex, Complex.conj_ofNat 5]

example : ∃ spline, ConstSpline spline := ⟨fun _ y _ => y.headD 0, fun t c x h => by
  obtain ⟨n, hn⟩ : ∃ n, t.length = n + 1 := ⟨t.length - 1, by omega⟩
  rw [hn]; rfl⟩

example : ∃ spline, AffineSpline spline := ⟨fun t y x => y.getD 0 0 + (x - t.getD 0 0) * ((y.getD 1 0 - y.getD 0 0) / (t.getD 1 0 - t.getD 0 0)), fun t a b x h hi => by
  match t, h with
  | u :: v :: l, _ =>
    have : u < v := by
      rw [List.pairwise_cons] at hi
      exact hi.1 v (by simp)
    have hne : v - u ≠ 0 := by linarith
    simp
    field_simp
    ring⟩

/-- A mode (2,0) that grows with time. -/
example : Affine { t := [0, 1, 3], s := 0, ellMax := 2, data := [fun i => movingY i + 0 * (if i = 6 then 1 else 0), fun i => movingY i + 1 * (if i = 6 then 1 else 0), fun i => movingY i + 3 * (if i = 6 then 1 else 0)] } 2
    movingY (fun i => if i = 6 then 1 else 0) where
  ellMax := rfl
  data := by simp
  times := by simp
  increasing := by norm_num
  momentum := by
    intro ell m h0 h1 hm
    rw [abs_le] at hm
    unfold modesOf lmIndex
    refine if_neg ?_
    have : ell = 0 ∨ ell = 1 := by omega
    rcases this with rfl | rfl <;> omega

example : ∃ map2salm, Exact map2salm := Verif.Props.GridMultiply.exact_exists

/-- The supertranslation for it: the mode (2,0) is `4 * 5 / 24`. -/
example : (4 * modesOf bump 2 0 / ((2 + 2) * (2 + 1) * 2 * (2 - 1)) : ℂ) = 5 / 6 := by
  norm_num [modesOf, bump, lmIndex]

end Verif.Props.Moreschi
