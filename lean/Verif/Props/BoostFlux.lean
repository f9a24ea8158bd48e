import Verif.Lemmas.BoostFlux
import Verif.Props.AngMomCov

/-!
# C66: the boost flux
-/

namespace Verif.Props.BoostFlux
open Real Verif.BoostFlux Verif.Wigner Verif.Flux Verif.Modes Verif.Slicing Verif.Spec.Slicing ComplexConjugate Verif.GridMultiply Verif.Sphere Verif.Spec.Sphere Verif.Spec.Boost Verif.Spec.Flux
open Verif.Props.Flux (range_facts operators_inside operators_nonempty expectation_value_partial combine_range sample sample_valid)
open Verif.Spec.Flux (modesOf)
open Verif.Spec.Flux
open Finset (Icc)

/-- What is needed of a generator of matrix elements. -/
structure Good (a b q w s : Int) (c : ℝ) (g : List Entry) : Prop where
  el : ∀ j n l m, a ≤ j → j ≤ b → -j ≤ n → n ≤ j → a ≤ l → l ≤ b → -l ≤ m → m ≤ l → matEl g j n l m = if n = m + q then (c : ℂ) * (gaunt w s l m q j : ℂ) else 0
  inside : Inside a b g
  ne : g ≠ []

theorem good_pZ (s a b : Int) (h0 : 0 ≤ a) (hab : a ≤ b) (hb : 1 ≤ b) : Good a b 0 0 s (cq 0) (pZ s a b) :=
  ⟨fun j n l m h1 h2 h3 h4 h5 h6 h7 h8 => el_pZ s a b j n l m h0 ⟨h1, h2⟩ ⟨h3, h4⟩ ⟨h5, h6⟩ ⟨h7, h8⟩, (operators_inside s a b).1, (operators_nonempty s a b hab hb).1⟩

theorem good_pPM (q s a b : Int) (hq : q = 1 ∨ q = -1) (h0 : 0 ≤ a) (hab : a ≤ b) (hb : 1 ≤ b) : Good a b q 0 s (cq q) (pPM q s a b) := by
  refine ⟨fun j n l m h1 h2 h3 h4 h5 h6 h7 h8 => el_pPM q s a b j n l m hq h0 ⟨h1, h2⟩ ⟨h3, h4⟩ ⟨h5, h6⟩ ⟨h7, h8⟩, ?_, ?_⟩
  · rcases hq with rfl | rfl
    · exact (operators_inside s a b).2.1
    · exact (operators_inside s a b).2.2.1
  · rcases hq with rfl | rfl
    · exact (operators_nonempty s a b hab hb).2.1
    · exact (operators_nonempty s a b hab hb).2.2.1

theorem loop_inside (a b q : Int) (val : Int → Int → Int → ℂ) :
    Inside a b (ellLoop a b fun ell ellp m => if m + q < -ellp ∨ m + q > ellp then none else some ⟨ellp, m + q, ell, m, val ell ellp m⟩) := by
  intro e he
  rw [mem_ellLoop] at he
  omega

theorem loop_ne (a b q : Int) (hq : q = 1 ∨ q = 0 ∨ q = -1) (hab : a ≤ b) (hb : 1 ≤ b) (val : Int → Int → Int → ℂ) :
    (ellLoop a b fun ell ellp m => if m + q < -ellp ∨ m + q > ellp then none else some ⟨ellp, m + q, ell, m, val ell ellp m⟩) ≠ [] :=
  List.ne_nil_of_mem (a := ⟨b, 0 + q, b, 0, val b b 0⟩) (mem_ellLoop.2 ⟨by simp; omega, by simp; omega, by simp; omega, by simp; omega, rfl, rfl⟩)

theorem good_ethChiZ (s a b : Int) (h0 : 0 ≤ a) (hab : a ≤ b) (hb : 1 ≤ b) : Good a b 0 1 s (√2 * cq 0) (ethChiZ s a b) := by
  have e : ∀ val : Int → Int → Int → ℂ, (ellLoop a b fun ell ellp m => if m < -ellp ∨ m > ellp then none else some (⟨ellp, m, ell, m, val ell ellp m⟩ : Entry)) =
      ellLoop a b fun ell ellp m => if m + 0 < -ellp ∨ m + 0 > ellp then none else some ⟨ellp, m + 0, ell, m, val ell ellp m⟩ := fun val => by simp only [add_zero]
  refine ⟨fun j n l m h1 h2 h3 h4 h5 h6 h7 h8 => el_ethChiZ s a b j n l m h0 ⟨h1, h2⟩ ⟨h3, h4⟩ ⟨h5, h6⟩ ⟨h7, h8⟩, ?_, ?_⟩
  · exact Eq.subst (motive := fun g => Inside a b g) (e _).symm (loop_inside a b 0 _)
  · exact Eq.subst (motive := fun g => g ≠ []) (e _).symm (loop_ne a b 0 (by simp) hab hb _)

theorem good_ethbarChiZ (s s' a b : Int) (hs : s' = s + 1) (h0 : 0 ≤ a) (hab : a ≤ b) (hb : 1 ≤ b) : Good a b 0 (-1) s' (√2 * cq 0) (ethbarChiZ s a b) := by
  subst hs
  have e : ∀ val : Int → Int → Int → ℂ, (ellLoop a b fun ell ellp m => if m < -ellp ∨ m > ellp then none else some (⟨ellp, m, ell, m, val ell ellp m⟩ : Entry)) =
      ellLoop a b fun ell ellp m => if m + 0 < -ellp ∨ m + 0 > ellp then none else some ⟨ellp, m + 0, ell, m, val ell ellp m⟩ := fun val => by simp only [add_zero]
  refine ⟨fun j n l m h1 h2 h3 h4 h5 h6 h7 h8 => el_ethbarChiZ s a b j n l m h0 ⟨h1, h2⟩ ⟨h3, h4⟩ ⟨h5, h6⟩ ⟨h7, h8⟩, ?_, ?_⟩
  · exact Eq.subst (motive := fun g => Inside a b g) (e _).symm (loop_inside a b 0 _)
  · exact Eq.subst (motive := fun g => g ≠ []) (e _).symm (loop_ne a b 0 (by simp) hab hb _)

theorem good_ethChiPM (q s a b : Int) (hq : q = 1 ∨ q = -1) (h0 : 0 ≤ a) (hab : a ≤ b) (hb : 1 ≤ b) : Good a b q 1 s (√2 * cq q) (ethChiPM q s a b) :=
  ⟨fun j n l m h1 h2 h3 h4 h5 h6 h7 h8 => el_ethChiPM q s a b j n l m hq h0 ⟨h1, h2⟩ ⟨h3, h4⟩ ⟨h5, h6⟩ ⟨h7, h8⟩, loop_inside a b q _, loop_ne a b q (by omega) hab hb _⟩

theorem good_ethbarChiPM (q s s' a b : Int) (hs : s' = s + 1) (hq : q = 1 ∨ q = -1) (h0 : 0 ≤ a) (hab : a ≤ b) (hb : 1 ≤ b) : Good a b q (-1) s' (√2 * cq q) (ethbarChiPM q s a b) := by
  subst hs
  exact ⟨fun j n l m h1 h2 h3 h4 h5 h6 h7 h8 => el_ethbarChiPM q s a b j n l m hq h0 ⟨h1, h2⟩ ⟨h3, h4⟩ ⟨h5, h6⟩ ⟨h7, h8⟩, loop_inside a b q _, loop_ne a b q (by omega) hab hb _⟩

/-- An expectation value is an integral. -/
theorem expectation_S (interp : WM ℝ Unit ℂ → List ℝ → WM ℝ Unit ℂ) (A B : Modes) (hA : Valid A.w) (hB : Valid B.w) (n1 : 2 ≤ A.w.nCols) (n2 : 2 ≤ B.w.nCols) (hs : A.spin = B.spin) (ht : A.w.t = B.w.t)
    (a b : Int) (a1 : A.w.ellMin = a) (a2 : A.w.ellMax = b) (b1 : B.w.ellMin = a) (b2 : B.w.ellMax = b) (q w s s' : Int) (hw : w = 1 ∨ w = 0 ∨ w = -1) (hq : q = 1 ∨ q = 0 ∨ q = -1) (hsw : s' + w = s) (c : ℝ)
    (g : Int → Int → List Entry) (hg : Good a b q w s' c (g a b)) (f f' : Nat → Int → Int → ℂ)
    (hf : ∀ k ell m, a ≤ ell → ell ≤ b → -ell ≤ m → m ≤ ell → modesOf A.w k ell m = f k ell m) (hf' : ∀ k ell m, a ≤ ell → ell ≤ b → -ell ≤ m → m ≤ ell → modesOf B.w k ell m = f' k ell m) :
    expectation interp A (dec g) B false false = .ok (A.w.t, (List.range A.w.t.length).map fun k =>
      S (fieldR s a b (f k)) (fun R => (c : ℂ) * Y w 1 q R) (fieldR s' a b (f' k))) := by
  have r := range_facts hA n1
  have h0 := hA.min
  rw [a1] at r h0
  rw [a2] at r
  have e := expectation_value_partial interp A B hA hB n1 n2 hs ht false false (Or.inr ⟨a1.trans b1.symm, a2.trans b2.symm⟩) g a b
    (by rw [a1, b1, max_self]) (by rw [a2, b2, min_self]) r.1 hg.inside hg.ne
  rw [e]
  congr 2
  apply List.map_congr_left
  intro k _
  rw [bracket_Y s w s' a b q c _ _ _ h0 hsw hq hw hg.el]
  unfold S
  congr 1
  funext R
  have i1 : fieldR s a b (modesOf A.w k) R = fieldR s a b (f k) R := by
    unfold fieldR
    refine Finset.sum_congr rfl fun ell h => Finset.sum_congr rfl fun m hm => ?_
    rw [Finset.mem_Icc] at h hm
    rw [hf k ell m h.1 h.2 hm.1 hm.2]
  have i2 : fieldR s' a b (modesOf B.w k) R = fieldR s' a b (f' k) R := by
    unfold fieldR
    refine Finset.sum_congr rfl fun ell h => Finset.sum_congr rfl fun m hm => ?_
    rw [Finset.mem_Icc] at h hm
    rw [hf' k ell m h.1 h.2 hm.1 hm.2]
  rw [i1, i2]
  ring

theorem range_getD (n : Nat) (f : Nat → ℂ) (k : Nat) (hk : k < n) : ((List.range n).map f).getD k 0 = f k := by
  rw [List.getD_eq_getElem?_getD, List.getElem?_map, List.getElem?_range hk]
  rfl

/-- The sum for one of `plus`, `minus` and `z`. -/
theorem direction_spec (interp : WM ℝ Unit ℂ → List ℝ → WM ℝ Unit ℂ) (h d : Modes) (hh : h.spin = -2) (hd : d.spin = -2) (hv : Valid h.w) (dv : Valid d.w) (hn : 2 ≤ h.w.nCols) (dn : 2 ≤ d.w.nCols)
    (ht : d.w.t = h.w.t) (hmin : d.w.ellMin = h.w.ellMin) (hmax : d.w.ellMax = h.w.ellMax) (q : Int) (hq : q = 1 ∨ q = 0 ∨ q = -1) (p e b : Int → Int → Int → List Entry)
    (gp : ∀ s, Good h.w.ellMin h.w.ellMax q 0 s (cq q) (p s h.w.ellMin h.w.ellMax)) (ge : Good h.w.ellMin h.w.ellMax q 1 (-2) (√2 * cq q) (e (-2) h.w.ellMin h.w.ellMax))
    (gb : Good h.w.ellMin h.w.ellMax q (-1) (-1) (√2 * cq q) (b (-2) h.w.ellMin h.w.ellMax)) :
    ∃ W, waves h d = .ok W ∧ direction interp W p e b = .ok ((List.range h.w.t.length).map fun k =>
      form h.w.ellMin h.w.ellMax (h.w.t.getD k 0) (modesOf h.w k) (modesOf d.w k) (fun R => (cq q : ℂ) * Y 0 1 q R) (fun R => ((√2 * cq q : ℝ) : ℂ) * Y 1 1 q R)
        (fun R => -1 * (((√2 * cq q : ℝ) : ℂ) * Y (-1) 1 q R))) := by
  obtain ⟨eh, w1, s1, t1, m1, M1, n1, v1, f1⟩ := eth_modes h hv
  obtain ⟨bh, w2, s2, t2, m2, M2, n2, v2, f2⟩ := ethbar_modes h hv
  obtain ⟨ed, w3, s3, t3, m3, M3, n3, v3, f3⟩ := eth_modes d dv
  obtain ⟨bd, w4, s4, t4, m4, M4, n4, v4, f4⟩ := ethbar_modes d dv
  rw [hh] at s1 s2 f1 f2
  rw [hd] at s3 s4 f3 f4
  rw [hmin, hmax] at f3 f4
  rw [hmin] at m3 m4
  rw [hmax] at M3 M4
  rw [ht] at t3 t4
  refine ⟨⟨h, d, eh, bh, ed, bd⟩, ?_, ?_⟩
  · unfold waves
    rw [w1, ok_bind, w2, ok_bind, w3, ok_bind, w4, ok_bind]
    rfl
  have same := fun (w : WM ℝ Unit ℂ) (k : Nat) (ell m : Int) (_ : h.w.ellMin ≤ ell) (_ : ell ≤ h.w.ellMax) (_ : -ell ≤ m) (_ : m ≤ ell) => (rfl : modesOf w k ell m = modesOf w k ell m)
  have x1 := expectation_S interp bd bh v4 v2 (by omega) (by omega) (s4.trans s2.symm) (t4.trans t2.symm) _ _ m4 M4 m2 M2 q 0 (-3) (-3) (by simp) hq (by norm_num) _ _ (gp (-3)) _ _ f4 f2
  have x2 := expectation_S interp ed eh v3 v1 (by omega) (by omega) (s3.trans s1.symm) (t3.trans t1.symm) _ _ m3 M3 m1 M1 q 0 (-1) (-1) (by simp) hq (by norm_num) _ _ (gp (-1)) _ _ f3 f1
  have x3 := expectation_S interp d h dv hv dn hn (hd.trans hh.symm) ht _ _ hmin hmax rfl rfl q 0 (-2) (-2) (by simp) hq (by norm_num) _ _ (gp (-2)) _ _ (same d.w) (same h.w)
  have x4 := expectation_S interp bh bd v2 v4 (by omega) (by omega) (s2.trans s4.symm) (t2.trans t4.symm) _ _ m2 M2 m4 M4 q 0 (-3) (-3) (by simp) hq (by norm_num) _ _ (gp (-3)) _ _ f2 f4
  have x5 := expectation_S interp eh ed v1 v3 (by omega) (by omega) (s1.trans s3.symm) (t1.trans t3.symm) _ _ m1 M1 m3 M3 q 0 (-1) (-1) (by simp) hq (by norm_num) _ _ (gp (-1)) _ _ f1 f3
  have x6 := expectation_S interp h d hv dv hn dn (hh.trans hd.symm) ht.symm _ _ rfl rfl hmin hmax q 0 (-2) (-2) (by simp) hq (by norm_num) _ _ (gp (-2)) _ _ (same h.w) (same d.w)
  have x7 := expectation_S interp ed h v3 hv (by omega) hn (s3.trans hh.symm) t3 _ _ m3 M3 rfl rfl q 1 (-1) (-2) (by simp) hq (by norm_num) _ _ ge _ _ f3 (same h.w)
  have x8 := expectation_S interp h ed hv v3 hn (by omega) (hh.trans s3.symm) t3.symm _ _ rfl rfl m3 M3 q (-1) (-2) (-1) (by simp) hq (by norm_num) _ _ gb _ _ (same h.w) f3
  have x9 := expectation_S interp d d dv dv dn dn rfl rfl _ _ hmin hmax hmin hmax q 0 (-2) (-2) (by simp) hq (by norm_num) _ _ (gp (-2)) _ _ (same d.w) (same d.w)
  unfold direction
  simp only
  rw [x1, ok_bind, x2, ok_bind, x3, ok_bind, x4, ok_bind, x5, ok_bind, x6, ok_bind, x7, ok_bind, x8, ok_bind, x9, ok_bind]
  show Except.ok _ = _
  congr 1
  unfold componentsOf
  rw [t1, t2, t3, t4, ht]
  apply List.map_congr_left
  intro k hk
  rw [List.mem_range] at hk
  simp only [range_getD _ _ k hk]
  unfold component form
  rw [S_smul (-1)]
  push_cast
  ring

/-! ## The components of the unit vector -/

theorem fieldR_one (s : Int) (f : Int → Int → ℂ) (R : Quaternion ℝ) : fieldR s 1 1 f R = f 1 (-1) * Y s 1 (-1) R + f 1 0 * Y s 1 0 R + f 1 1 * Y s 1 1 R := by
  unfold fieldR
  have e : (Icc (-1 : Int) 1) = {-1, 0, 1} := by decide
  rw [Finset.Icc_self, Finset.sum_singleton, e, Finset.sum_insert (by decide), Finset.sum_insert (by decide), Finset.sum_singleton]
  ring

theorem eth_one (f : Int → Int → ℂ) (m : Int) : eth 0 f 1 m = (√2 : ℝ) * f 1 m := by
  unfold eth
  norm_num

theorem ethbar_one (f : Int → Int → ℂ) (m : Int) : ethbar 0 f 1 m = -(√2 : ℝ) * f 1 m := by
  unfold ethbar
  norm_num

theorem sqrt_two_thirds : √(8 * π / 3) = 2 * √(2 * π / 3) := by
  have : (2 : ℝ) = √4 := by
    rw [show (4 : ℝ) = 2 ^ 2 by norm_num, Real.sqrt_sq (by norm_num)]
  conv_rhs => rw [this]
  rw [← Real.sqrt_mul (by norm_num)]
  congr 1
  rw [← this]
  ring

/-- The sums for `plus`, `minus` and `z`. -/
noncomputable def part (a b : Int) (u : ℝ) (h N : Int → Int → ℂ) (q : Int) : ℂ :=
  form a b u h N (fun R => (cq q : ℂ) * Y 0 1 q R) (fun R => ((√2 * cq q : ℝ) : ℂ) * Y 1 1 q R) (fun R => -1 * (((√2 * cq q : ℝ) : ℂ) * Y (-1) 1 q R))

theorem part_cont (q : Int) (hq : q = 1 ∨ q = 0 ∨ q = -1) (w : Int) (c : ℂ) : Cont fun R => c * Y w 1 q R := Cont.smul _ (Y_cont w 1 q (by omega) (by omega))

theorem chi_z (a b : Int) (u : ℝ) (h N : Int → Int → ℂ) : solid (integrand a b (chi 2) u h N) = part a b u h N 0 := by
  rw [← form_integrand]
  unfold part
  congr 1 <;> funext R
  · rw [fieldR_one]
    simp [chi, cq]
  · rw [fieldR_one]
    simp [chi, cq, eth_one]
  · rw [fieldR_one]
    simp [chi, cq, ethbar_one]

theorem chi_pm (a b : Int) (u : ℝ) (h N : Int → Int → ℂ) (x y : ℂ) (χ : Int → Int → ℂ) (h0 : χ 1 0 = 0) (h1 : χ 1 1 = x * cq 1) (h2 : χ 1 (-1) = y * cq (-1)) :
    solid (integrand a b χ u h N) = x * part a b u h N 1 + y * part a b u h N (-1) := by
  rw [← form_integrand]
  unfold part
  have p := part_cont 1 (by simp)
  have m := part_cont (-1) (by simp)
  rw [← form_smul, ← form_smul, ← form_add _ _ _ _ _ (Cont.smul _ (p _ _)) (Cont.smul _ (p _ _)) (Cont.smul _ (Cont.smul _ (p _ _))) (Cont.smul _ (m _ _)) (Cont.smul _ (m _ _)) (Cont.smul _ (Cont.smul _ (m _ _)))]
  congr 1 <;> funext R
  · rw [fieldR_one, h0, h1, h2]
    ring
  · rw [fieldR_one, eth_one, eth_one, eth_one, h0, h1, h2]
    push_cast
    ring
  · rw [fieldR_one, ethbar_one, ethbar_one, ethbar_one, h0, h1, h2]
    push_cast
    ring

theorem cq_values : cq 1 = -(2 * √(2 * π / 3)) ∧ cq (-1) = 2 * √(2 * π / 3) := by
  constructor
  · unfold cq
    rw [if_neg (by norm_num), sqrt_two_thirds]
    push_cast
    ring
  · unfold cq
    rw [if_neg (by norm_num), sqrt_two_thirds]
    push_cast
    ring

theorem chi_x (a b : Int) (u : ℝ) (h N : Int → Int → ℂ) : solid (integrand a b (chi 0) u h N) = 1 / 2 * part a b u h N 1 + 1 / 2 * part a b u h N (-1) := by
  refine chi_pm a b u h N _ _ _ (by simp [chi]) ?_ ?_
  · rw [cq_values.1]
    simp [chi]
  · rw [cq_values.2]
    simp [chi]

theorem chi_y (a b : Int) (u : ℝ) (h N : Int → Int → ℂ) : solid (integrand a b (chi 1) u h N) = -Complex.I / 2 * part a b u h N 1 + Complex.I / 2 * part a b u h N (-1) := by
  refine chi_pm a b u h N _ _ _ (by simp [chi]) ?_ ?_
  · rw [cq_values.1]
    simp [chi]
    ring
  · rw [cq_values.2]
    simp [chi]
    ring

theorem chi_values : chi 0 1 (-1) = (√(2 * π / 3) : ℝ) ∧ chi 0 1 0 = 0 ∧ chi 0 1 1 = -(√(2 * π / 3) : ℝ) ∧
    chi 1 1 (-1) = Complex.I * (√(2 * π / 3) : ℝ) ∧ chi 1 1 0 = 0 ∧ chi 1 1 1 = Complex.I * (√(2 * π / 3) : ℝ) ∧
    chi 2 1 (-1) = 0 ∧ chi 2 1 0 = (√(4 * π / 3) : ℝ) ∧ chi 2 1 1 = 0 := by
  refine ⟨rfl, rfl, rfl, rfl, rfl, rfl, rfl, rfl, rfl⟩

/-- C66: the modes `chi` are those of the components of the unit vector. -/
theorem chi_field (i : Fin 3) (θ φ : ℝ) : field 0 1 1 (chi i) θ φ = nHat i θ φ := by
  have hz : ((√(4 * π / 3) : ℝ) : ℂ) * Y 0 1 0 (rotor θ φ) = (Real.cos θ : ℝ) := Y_cos θ φ
  have hp := Y_sin 1 (by simp) θ φ
  have hm := Y_sin (-1) (by simp) θ φ
  rw [sqrt_two_thirds] at hp hm
  have ex : Complex.exp ((1 : Int) * φ * Complex.I) = Complex.cos φ + Complex.sin φ * Complex.I := by
    rw [← Complex.exp_mul_I]; push_cast; congr 1; ring
  have ex' : Complex.exp ((-1 : Int) * φ * Complex.I) = Complex.cos φ - Complex.sin φ * Complex.I := by
    rw [sub_eq_add_neg, ← neg_mul, ← Complex.cos_neg, ← Complex.sin_neg, ← Complex.exp_mul_I]; push_cast; congr 1; ring
  rw [ex] at hp
  rw [ex'] at hm
  rw [Props.FluxIntegral.field_fieldR, fieldR_one]
  push_cast at hp hm hz
  obtain ⟨a1, a2, a3, a4, a5, a6, a7, a8, a9⟩ := chi_values
  fin_cases i
  · show chi 0 1 (-1) * _ + chi 0 1 0 * _ + chi 0 1 1 * _ = ((Real.sin θ * Real.cos φ : ℝ) : ℂ)
    rw [a1, a2, a3]
    push_cast
    linear_combination 1 / 2 * hp + 1 / 2 * hm
  · show chi 1 1 (-1) * _ + chi 1 1 0 * _ + chi 1 1 1 * _ = ((Real.sin θ * Real.sin φ : ℝ) : ℂ)
    rw [a4, a5, a6]
    push_cast
    have := Complex.I_mul_I
    linear_combination -Complex.I / 2 * hp + Complex.I / 2 * hm - Complex.sin θ * Complex.sin φ * this
  · show chi 2 1 (-1) * _ + chi 2 1 0 * _ + chi 2 1 1 * _ = ((Real.cos θ : ℝ) : ℂ)
    rw [a7, a8, a9]
    push_cast
    linear_combination hz

theorem chi_conj (i : Fin 3) (R : Quaternion ℝ) : conj (fieldR 0 1 1 (chi i) R) = fieldR 0 1 1 (chi i) R ∧ conj (fieldR 1 1 1 (eth 0 (chi i)) R) = fieldR (-1) 1 1 (ethbar 0 (chi i)) R := by
  have c := fun (a b : Int) ha hb => pm_conj (a := a) (b := b) R ha hb
  constructor
  · rw [fieldR_one]
    simp only [map_add, map_mul]
    rw [c 1 0 (by simp) (by simp), c 0 0 (by simp) (by simp), c (-1) 0 (by simp) (by simp)]
    fin_cases i <;> simp [chi, pm]
    all_goals ring
  · rw [fieldR_one, fieldR_one]
    simp only [map_add, map_mul, eth_one, ethbar_one]
    rw [c 1 1 (by simp) (by simp), c 0 1 (by simp) (by simp), c (-1) 1 (by simp) (by simp)]
    fin_cases i <;> simp [chi, pm]
    all_goals ring

/-- The integrand is real. -/
theorem integrand_real (a b : Int) (i : Fin 3) (u : ℝ) (h N : Int → Int → ℂ) : ∃ x : ℝ, solid (integrand a b (chi i) u h N) = x := by
  have hr : ∀ θ φ, integrand a b (chi i) u h N θ φ = ((integrand a b (chi i) u h N θ φ).re : ℂ) := by
    intro θ φ
    refine (Complex.conj_eq_iff_re.1 ?_).symm
    obtain ⟨h1, h2⟩ := chi_conj i (rotor θ φ)
    have h3 : conj (fieldR (-1) 1 1 (ethbar 0 (chi i)) (rotor θ φ)) = fieldR 1 1 1 (eth 0 (chi i)) (rotor θ φ) := by rw [← h2, Complex.conj_conj]
    unfold integrand
    simp only [Props.FluxIntegral.field_fieldR, map_add, map_sub, map_mul, map_div₀, map_one, map_ofNat, Complex.conj_conj, Complex.conj_ofReal, h1, h2, h3]
    ring
  obtain ⟨x, hx⟩ := Props.FluxIntegral.solid_re fun θ φ => (integrand a b (chi i) u h N θ φ).re
  refine ⟨x, ?_⟩
  rw [← hx]
  congr 1
  funext θ φ
  exact hr θ φ

/-! ## The boost flux -/

theorem boost_flux_parts (interp : WM ℝ Unit ℂ → List ℝ → WM ℝ Unit ℂ) (dot : WM ℝ Unit ℂ → WM ℝ Unit ℂ)
    (h : WM ℝ Unit ℂ) (hdot : Option (Int × Modes)) (d : Modes)
    (hd : (hdot = none ∧ d = ⟨-2, dot h⟩) ∨ hdot = some (Weights.hdot, d)) (hs : d.spin = -2)
    (hv : Valid h) (hn : 2 ≤ h.nCols) (dv : Valid d.w) (dn : 2 ≤ d.w.nCols) (ht : d.w.t = h.t)
    (hmin : d.w.ellMin = h.ellMin) (hmax : d.w.ellMax = h.ellMax) :
    boostFlux interp Weights.h (-2) dot h hdot = .ok ((List.range h.t.length).map fun k =>
      toXYZ (-32 * π) (part h.ellMin h.ellMax (h.t.getD k 0) (modesOf h k) (modesOf d.w k) 1) (part h.ellMin h.ellMax (h.t.getD k 0) (modesOf h k) (modesOf d.w k) (-1))
        (part h.ellMin h.ellMax (h.t.getD k 0) (modesOf h k) (modesOf d.w k) 0)) := by
  obtain ⟨r1, r2⟩ := range_facts hv hn
  have h0 := hv.min
  have dir := direction_spec interp ⟨-2, h⟩ d rfl hs hv dv hn dn ht hmin hmax
  obtain ⟨W, hW, dp⟩ := dir 1 (by simp) (pPM 1) (ethChiPM 1) (ethbarChiPM 1) (fun s => good_pPM 1 s _ _ (by simp) h0 r1 r2) (good_ethChiPM 1 (-2) _ _ (by simp) h0 r1 r2) (good_ethbarChiPM 1 (-2) (-1) _ _ (by norm_num) (by simp) h0 r1 r2)
  obtain ⟨W', hW', dm⟩ := dir (-1) (by simp) (pPM (-1)) (ethChiPM (-1)) (ethbarChiPM (-1)) (fun s => good_pPM (-1) s _ _ (by simp) h0 r1 r2) (good_ethChiPM (-1) (-2) _ _ (by simp) h0 r1 r2) (good_ethbarChiPM (-1) (-2) (-1) _ _ (by norm_num) (by simp) h0 r1 r2)
  obtain ⟨W'', hW'', dz⟩ := dir 0 (by simp) pZ ethChiZ ethbarChiZ (fun s => good_pZ s _ _ h0 r1 r2) (good_ethChiZ (-2) _ _ h0 r1 r2) (good_ethbarChiZ (-2) (-1) _ _ (by norm_num) h0 r1 r2)
  have := Except.ok.inj (hW.symm.trans hW'); subst this
  have := Except.ok.inj (hW.symm.trans hW''); subst this
  have hchoose : givenHdot (-2) dot h hdot = .ok d := by
    rcases hd with ⟨h1, h2⟩ | h1
    · rw [h1, h2]; rfl
    · rw [h1]; rfl
  have step : boostFlux interp Weights.h (-2) dot h hdot = (do
    let hd ← givenHdot (-2) dot h hdot
    let W ← waves ⟨-2, h⟩ hd
    let p ← direction interp W (pPM 1) (ethChiPM 1) (ethbarChiPM 1)
    let m ← direction interp W (pPM (-1)) (ethChiPM (-1)) (ethbarChiPM (-1))
    let z ← direction interp W pZ ethChiZ ethbarChiZ
    pure (combine (-32 * Real.pi) p m z)) := rfl
  rw [step, hchoose, ok_bind, hW, ok_bind, dp, ok_bind, dm, ok_bind, dz, ok_bind]
  show Except.ok _ = _
  rw [combine_range]
  rfl

/-- C66: the boost flux at the time `u` has the components `-1/32π ∫ {…} dΩ`, with the expression of the documentation as integrand. -/
theorem boost_flux_integral (interp : WM ℝ Unit ℂ → List ℝ → WM ℝ Unit ℂ) (dot : WM ℝ Unit ℂ → WM ℝ Unit ℂ)
    (h : WM ℝ Unit ℂ) (hdot : Option (Int × Modes)) (d : Modes)
    (hd : (hdot = none ∧ d = ⟨-2, dot h⟩) ∨ hdot = some (Weights.hdot, d)) (hs : d.spin = -2)
    (hv : Valid h) (hn : 2 ≤ h.nCols) (dv : Valid d.w) (dn : 2 ≤ d.w.nCols) (ht : d.w.t = h.t)
    (hmin : d.w.ellMin = h.ellMin) (hmax : d.w.ellMax = h.ellMax) :
    ∃ B, boostFlux interp Weights.h (-2) dot h hdot = .ok B ∧ B.length = h.t.length ∧ ∀ (k : Nat) (u : ℝ), h.t[k]? = some u → ∃ b, B[k]? = some b ∧ ∀ i : Fin 3,
      (((![b.1, b.2.1, b.2.2] : Fin 3 → ℝ) i : ℝ) : ℂ) = -1 / (32 * π) * solid (integrand h.ellMin h.ellMax (chi i) u (modesOf h k) (modesOf d.w k)) := by
  refine ⟨_, boost_flux_parts interp dot h hdot d hd hs hv hn dv dn ht hmin hmax, by simp, fun k u hu => ?_⟩
  have hk : k < h.t.length := by
    by_contra hk
    rw [List.getElem?_eq_none (by omega)] at hu
    cases hu
  have hget : h.t.getD k 0 = u := by rw [List.getD_eq_getElem?_getD, hu]; rfl
  refine ⟨_, by rw [List.getElem?_map, List.getElem?_range hk]; rfl, ?_⟩
  beta_reduce
  rw [hget]
  generalize modesOf h k = f
  generalize modesOf d.w k = g
  have hx := chi_x h.ellMin h.ellMax u f g
  have hy := chi_y h.ellMin h.ellMax u f g
  have hz := chi_z h.ellMin h.ellMax u f g
  obtain ⟨x, ex⟩ := integrand_real h.ellMin h.ellMax 0 u f g
  obtain ⟨y, ey⟩ := integrand_real h.ellMin h.ellMax 1 u f g
  obtain ⟨z, ez⟩ := integrand_real h.ellMin h.ellMax 2 u f g
  generalize part h.ellMin h.ellMax u f g 1 = P at *
  generalize part h.ellMin h.ellMax u f g (-1) = M at *
  generalize part h.ellMin h.ellMax u f g 0 = Z at *
  have hpi : (π : ℂ) ≠ 0 := by exact_mod_cast Real.pi_ne_zero
  intro i
  fin_cases i
  · show ((1 / 2 * (P.re + M.re) / (-32 * π) : ℝ) : ℂ) = _
    have : x = 1 / 2 * (P.re + M.re) := by
      have := congrArg Complex.re (ex.symm.trans hx)
      simp at this
      linarith
    show _ = _ * solid (integrand h.ellMin h.ellMax (chi 0) u f g)
    rw [ex, ← this]
    push_cast
    field_simp
  · show ((1 / 2 * (P.im - M.im) / (-32 * π) : ℝ) : ℂ) = _
    have : y = 1 / 2 * (P.im - M.im) := by
      have := congrArg Complex.re (ey.symm.trans hy)
      simp at this
      linarith
    show _ = _ * solid (integrand h.ellMin h.ellMax (chi 1) u f g)
    rw [ey, ← this]
    push_cast
    field_simp
  · show ((Z.re / (-32 * π) : ℝ) : ℂ) = _
    have : z = Z.re := by
      have := congrArg Complex.re (ez.symm.trans hz)
      simp at this
      linarith
    show _ = _ * solid (integrand h.ellMin h.ellMax (chi 2) u f g)
    rw [ez, ← this]
    push_cast
    field_simp

/-! ## Rotations -/

open Verif.AbdTransform (rotateVec)
open Verif.GridModes (vDotR)
open Verif.Spec.Rotation (rot UnitRotor)
open Verif.GridMultiply.Spec (expansion)

/-- The functions with given values have unique modes. -/
theorem fieldR_inj (s a b : Int) (ha : |s| ≤ a) (f g : Int → Int → ℂ) (h : ∀ R, GridMultiply.Spec.Unit R → fieldR s a b f R = fieldR s a b g R) (l m : Int) (h1 : a ≤ l) (h2 : l ≤ b) (h3 : -l ≤ m) (h4 : m ≤ l) :
    f l m = g l m := by
  have key : ∀ f : Int → Int → ℂ, sphere (fun R => conj (fieldR s a b (fun j n => if j = l ∧ n = m then 1 else 0) R) * fieldR s a b f R) = f l m := by
    intro f
    refine (Props.FluxIntegral.parseval s a b ha _ f).trans ?_
    unfold Verif.Spec.AngMom.inner
    rw [Finset.sum_eq_single_of_mem l (Finset.mem_Icc.2 ⟨h1, h2⟩), Finset.sum_eq_single_of_mem m (Finset.mem_Icc.2 ⟨h3, h4⟩)]
    · simp
    · intro n _ hn
      simp [hn]
    · intro j _ hj
      simp [hj]
  rw [← key f, ← key g]
  refine sphere_congr fun R hR => ?_
  rw [h R hR]

/-- The component along `v` of the unit vector. -/
noncomputable def chiV (v : Fin 3 → ℝ) : Int → Int → ℂ := fun ell m => ∑ i, (v i : ℂ) * chi i ell m

theorem chiV_eq (v : Fin 3 → ℝ) (m : Int) (h1 : -1 ≤ m) (h2 : m ≤ 1) : chiV v 1 m = vDotR v 1 m := by
  obtain ⟨a1, a2, a3, a4, a5, a6, a7, a8, a9⟩ := chi_values
  have hm : m = -1 ∨ m = 0 ∨ m = 1 := by omega
  unfold chiV
  rw [Fin.sum_univ_three]
  rcases hm with rfl | rfl | rfl
  · rw [a1, a4, a7]
    show _ = (⟨v 0, v 1⟩ : ℂ) * (√(2 * π / 3) : ℝ)
    rw [Complex.mk_eq_add_mul_I]
    ring
  · rw [a2, a5, a8]
    show _ = ((v 2 * √(4 * π / 3) : ℝ) : ℂ)
    push_cast
    ring
  · rw [a3, a6, a9]
    show _ = (⟨-v 0, v 1⟩ : ℂ) * (√(2 * π / 3) : ℝ)
    rw [Complex.mk_eq_add_mul_I]
    push_cast
    ring

theorem fieldR_chiV (v : Fin 3 → ℝ) (R : Quaternion ℝ) : fieldR 0 1 1 (chiV v) R = expansion 0 1 (vDotR v) R := by
  rw [Verif.AngMomCov.expansion_vDotR]
  unfold fieldR
  rw [Finset.Icc_self, Finset.sum_singleton]
  refine Finset.sum_congr rfl fun m hm => ?_
  rw [Finset.mem_Icc] at hm
  rw [chiV_eq v m hm.1 hm.2]

/-- The modes of the direction are turned as those of a waveform. -/
theorem chiV_rotated {Q : Quaternion ℝ} (hQ : UnitRotor Q) (v : Fin 3 → ℝ) (m : Int) (h1 : -1 ≤ m) (h2 : m ≤ 1) : chiV v 1 m = rot 1 Q (chiV (rotateVec Q v) 1) m := by
  refine fieldR_inj 0 1 1 (by norm_num) (chiV v) (fun ell m => rot ell Q (chiV (rotateVec Q v) ell) m) (fun R _ => ?_) 1 m le_rfl le_rfl h1 h2
  rw [Verif.Props.FluxCovariance.fieldR_rotated 0 1 1 (by norm_num) (chiV (rotateVec Q v)) _ Q (fun _ _ _ _ _ _ => rfl), fieldR_chiV, fieldR_chiV, Verif.AngMomCov.vDotR_rotated hQ]

theorem rot_smul (l : Int) (Q : Quaternion ℝ) (c : ℂ) (f : Int → ℂ) (m : Int) : rot l Q (fun n => c * f n) m = c * rot l Q f m := by
  unfold Verif.Spec.Rotation.rot
  rw [Finset.mul_sum]
  refine Finset.sum_congr rfl fun n _ => ?_
  ring

/-- ... and so are those of its derivatives. -/
theorem chi_fields_rotated {Q : Quaternion ℝ} (hQ : UnitRotor Q) (v : Fin 3 → ℝ) (R : Quaternion ℝ) :
    fieldR 0 1 1 (chiV v) R = fieldR 0 1 1 (chiV (rotateVec Q v)) (Q * R) ∧ fieldR 1 1 1 (eth 0 (chiV v)) R = fieldR 1 1 1 (eth 0 (chiV (rotateVec Q v))) (Q * R) ∧
      fieldR (-1) 1 1 (ethbar 0 (chiV v)) R = fieldR (-1) 1 1 (ethbar 0 (chiV (rotateVec Q v))) (Q * R) := by
  have e : ∀ ell m : Int, 1 ≤ ell → ell ≤ 1 → -ell ≤ m → m ≤ ell → chiV v ell m = rot ell Q (chiV (rotateVec Q v) ell) m := by
    intro ell m h1 h2 h3 h4
    have : ell = 1 := by omega
    subst this
    exact chiV_rotated hQ v m h3 h4
  refine ⟨Verif.Props.FluxCovariance.fieldR_rotated 0 1 1 (by norm_num) _ _ Q e R, Verif.Props.FluxCovariance.fieldR_rotated 1 1 1 (by norm_num) _ _ Q (fun ell m h1 h2 h3 h4 => ?_) R,
    Verif.Props.FluxCovariance.fieldR_rotated (-1) 1 1 (by norm_num) _ _ Q (fun ell m h1 h2 h3 h4 => ?_) R⟩
  · unfold eth
    rw [rot_smul, e ell m h1 h2 h3 h4]
  · unfold ethbar
    rw [rot_smul, e ell m h1 h2 h3 h4]

/-- One of the terms. -/
theorem S_rotated (s1 s2 s3 a b : Int) (ha : 0 ≤ a) (hb : 0 ≤ b) (f f' g g' c c' : Int → Int → ℂ) (hs : -s1 + s2 + s3 = 0) (Q : Quaternion ℝ) (hQ : UnitRotor Q)
    (hf : ∀ R, fieldR s1 a b f' R = fieldR s1 a b f (Q * R)) (hg : ∀ R, fieldR s3 a b g' R = fieldR s3 a b g (Q * R)) (hc : ∀ R, fieldR s2 1 1 c' R = fieldR s2 1 1 c (Q * R)) :
    S (fieldR s1 a b f') (fieldR s2 1 1 c') (fieldR s3 a b g') = S (fieldR s1 a b f) (fieldR s2 1 1 c) (fieldR s3 a b g) := by
  unfold S
  simp only [hf, hg, hc, Verif.Props.FluxCovariance.fieldR_expansion s1 a b ha, Verif.Props.FluxCovariance.fieldR_expansion s3 a b ha, Verif.Props.FluxCovariance.fieldR_expansion s2 1 1 (by norm_num)]
  exact Verif.AngMomCov.triple_rotated s1 s2 s3 b 1 b _ _ _ hs (by omega) Q hQ

/-- The integral does not change when the waveform and the direction are turned. -/
theorem integral_rotated (a b : Int) (ha : 0 ≤ a) (hb : 0 ≤ b) (u : ℝ) (h h' N N' : Int → Int → ℂ) (Q : Quaternion ℝ) (hQ : UnitRotor Q)
    (hh : ∀ ell m, a ≤ ell → ell ≤ b → -ell ≤ m → m ≤ ell → h' ell m = rot ell Q (h ell) m) (hN : ∀ ell m, a ≤ ell → ell ≤ b → -ell ≤ m → m ≤ ell → N' ell m = rot ell Q (N ell) m) (v : Fin 3 → ℝ) :
    solid (integrand a b (chiV v) u h' N') = solid (integrand a b (chiV (rotateVec Q v)) u h N) := by
  have r := fun s f g hfg => Verif.Props.FluxCovariance.fieldR_rotated s a b ha f g Q hfg
  have r1 := r (-2) h h' hh
  have r2 := r (-2) N N' hN
  have r3 := r (-1) (eth (-2) h) (eth (-2) h') (fun ell m h1 h2 h3 h4 => by unfold eth; rw [rot_smul, hh ell m h1 h2 h3 h4])
  have r4 := r (-1) (eth (-2) N) (eth (-2) N') (fun ell m h1 h2 h3 h4 => by unfold eth; rw [rot_smul, hN ell m h1 h2 h3 h4])
  have r5 := r (-3) (ethbar (-2) h) (ethbar (-2) h') (fun ell m h1 h2 h3 h4 => by unfold ethbar; rw [rot_smul, hh ell m h1 h2 h3 h4])
  have r6 := r (-3) (ethbar (-2) N) (ethbar (-2) N') (fun ell m h1 h2 h3 h4 => by unfold ethbar; rw [rot_smul, hN ell m h1 h2 h3 h4])
  have c0 := fun R => (chi_fields_rotated hQ v R).1
  have c1 := fun R => (chi_fields_rotated hQ v R).2.1
  have c2 := fun R => (chi_fields_rotated hQ v R).2.2
  rw [← form_integrand, ← form_integrand]
  unfold form
  rw [S_rotated (-3) 0 (-3) a b ha hb _ _ _ _ _ _ (by norm_num) Q hQ r6 r5 c0, S_rotated (-1) 0 (-1) a b ha hb _ _ _ _ _ _ (by norm_num) Q hQ r4 r3 c0,
    S_rotated (-3) 0 (-3) a b ha hb _ _ _ _ _ _ (by norm_num) Q hQ r5 r6 c0, S_rotated (-1) 0 (-1) a b ha hb _ _ _ _ _ _ (by norm_num) Q hQ r3 r4 c0,
    S_rotated (-2) 0 (-2) a b ha hb _ _ _ _ _ _ (by norm_num) Q hQ r2 r1 c0, S_rotated (-2) 0 (-2) a b ha hb _ _ _ _ _ _ (by norm_num) Q hQ r1 r2 c0,
    S_rotated (-1) 1 (-2) a b ha hb _ _ _ _ _ _ (by norm_num) Q hQ r4 r1 c1, S_rotated (-2) (-1) (-1) a b ha hb _ _ _ _ _ _ (by norm_num) Q hQ r1 r4 c2,
    S_rotated (-2) 0 (-2) a b ha hb _ _ _ _ _ _ (by norm_num) Q hQ r2 r2 c0]

/-- The integral is linear in the direction. -/
theorem integral_along (a b : Int) (u : ℝ) (h N : Int → Int → ℂ) (v : Fin 3 → ℝ) : solid (integrand a b (chiV v) u h N) = ∑ i, (v i : ℂ) * solid (integrand a b (chi i) u h N) := by
  have d := fun s f => fieldR_cont s 1 1 f
  have l0 : ∀ s R, fieldR s 1 1 (chiV v) R = v 0 * fieldR s 1 1 (chi 0) R + v 1 * fieldR s 1 1 (chi 1) R + v 2 * fieldR s 1 1 (chi 2) R := by
    intro s R
    simp only [fieldR_one, chiV, Fin.sum_univ_three]
    ring
  have l1 : ∀ R, fieldR 1 1 1 (eth 0 (chiV v)) R = v 0 * fieldR 1 1 1 (eth 0 (chi 0)) R + v 1 * fieldR 1 1 1 (eth 0 (chi 1)) R + v 2 * fieldR 1 1 1 (eth 0 (chi 2)) R := by
    intro R
    simp only [fieldR_one, eth_one, chiV, Fin.sum_univ_three]
    ring
  have l2 : ∀ R, fieldR (-1) 1 1 (ethbar 0 (chiV v)) R = v 0 * fieldR (-1) 1 1 (ethbar 0 (chi 0)) R + v 1 * fieldR (-1) 1 1 (ethbar 0 (chi 1)) R + v 2 * fieldR (-1) 1 1 (ethbar 0 (chi 2)) R := by
    intro R
    simp only [fieldR_one, ethbar_one, chiV, Fin.sum_univ_three]
    ring
  rw [Fin.sum_univ_three, ← form_integrand, ← form_integrand, ← form_integrand, ← form_integrand, ← form_smul, ← form_smul, ← form_smul,
    ← form_add _ _ _ _ _ ((d _ _).smul _) ((d _ _).smul _) ((d _ _).smul _) ((d _ _).smul _) ((d _ _).smul _) ((d _ _).smul _),
    ← form_add _ _ _ _ _ (((d _ _).smul _).add ((d _ _).smul _)) (((d _ _).smul _).add ((d _ _).smul _)) (((d _ _).smul _).add ((d _ _).smul _)) ((d _ _).smul _) ((d _ _).smul _) ((d _ _).smul _)]
  congr 1 <;> funext R
  · exact l0 0 R
  · exact l1 R
  · exact l2 R

/-- C66: the boost flux is a vector: that of a rotated waveform is the same vector, with respect to the rotated axes. -/
theorem boost_flux_rotated (interp : WM ℝ Unit ℂ → List ℝ → WM ℝ Unit ℂ) (dot : WM ℝ Unit ℂ → WM ℝ Unit ℂ)
    (h : WM ℝ Unit ℂ) (hd : WM ℝ Unit ℂ) (hv : Valid h) (hn : 2 ≤ h.nCols) (dv : Valid hd) (ht : hd.t = h.t) (hmin : hd.ellMin = h.ellMin) (hmax : hd.ellMax = h.ellMax)
    (Q : Quaternion ℝ) (hQ : UnitRotor Q) (D tmp D' tmp' : Row ℂ) :
    ∃ B B', boostFlux interp Weights.h (-2) dot h (some (Weights.hdot, ⟨-2, hd⟩)) = .ok B ∧
      boostFlux interp Weights.h (-2) dot (Props.FluxCovariance.rotated h Q D tmp) (some (Weights.hdot, ⟨-2, Props.FluxCovariance.rotated hd Q D' tmp'⟩)) = .ok B' ∧
      B.length = h.t.length ∧ B'.length = h.t.length ∧
      ∀ (k : Nat) (b b' : ℝ × ℝ × ℝ), B[k]? = some b → B'[k]? = some b' → (![b.1, b.2.1, b.2.2] : Fin 3 → ℝ) = rotateVec Q ![b'.1, b'.2.1, b'.2.2] := by
  have hcols : hd.nCols = h.nCols := by
    have h1 := hv.modes
    have h2 := dv.modes
    rw [hmin, hmax, ← h1] at h2
    omega
  obtain ⟨v1, m1⟩ := Props.FluxCovariance.rotated_modes h hv Q D tmp
  obtain ⟨v2, m2⟩ := Props.FluxCovariance.rotated_modes hd dv Q D' tmp'
  obtain ⟨B, e1, l1, f1⟩ := boost_flux_integral interp dot h (some (Weights.hdot, ⟨-2, hd⟩)) ⟨-2, hd⟩ (Or.inr rfl) rfl hv hn dv (by rw [hcols]; exact hn) ht hmin hmax
  obtain ⟨B', e2, l2, f2⟩ := boost_flux_integral interp dot (Props.FluxCovariance.rotated h Q D tmp) (some (Weights.hdot, ⟨-2, Props.FluxCovariance.rotated hd Q D' tmp'⟩)) ⟨-2, Props.FluxCovariance.rotated hd Q D' tmp'⟩
    (Or.inr rfl) rfl v1 hn v2 (by show 2 ≤ hd.nCols; rw [hcols]; exact hn) ht hmin hmax
  refine ⟨B, B', e1, e2, l1, l2, fun k b b' hb hb' => ?_⟩
  have hk : k < h.t.length := by
    rw [← l1]
    by_contra hk
    rw [List.getElem?_eq_none (by omega)] at hb
    cases hb
  have hk1 : k < h.data.length := by rw [hv.rows]; exact hk
  have hk2 : k < hd.data.length := by rw [dv.rows, ht]; exact hk
  obtain ⟨x, hx, fx⟩ := f1 k _ (List.getElem?_eq_getElem hk)
  obtain ⟨x', hx', fx'⟩ := f2 k _ (List.getElem?_eq_getElem hk)
  have := Option.some.inj (hx.symm.trans hb); subst this
  have := Option.some.inj (hx'.symm.trans hb'); subst this
  obtain ⟨r1, r2⟩ := range_facts hv hn
  refine Props.AngMomCov.vector_from_forms Q hQ _ _ fun v => ?_
  have key := integral_rotated h.ellMin h.ellMax hv.min (by omega) h.t[k] (modesOf h k) (modesOf (Props.FluxCovariance.rotated h Q D tmp) k) (modesOf hd k) (modesOf (Props.FluxCovariance.rotated hd Q D' tmp') k) Q hQ
    (fun ell m a b c d => m1 k hk1 ell m a b c d) (fun ell m a b c d => m2 k hk2 ell m (hmin ▸ a) (hmax ▸ b) c d) v
  rw [integral_along, integral_along] at key
  have key' := congrArg (fun z : ℂ => -1 / (32 * π : ℂ) * z) key
  simp only [Finset.mul_sum] at key'
  have t1 : ∀ i, (-1 / (32 * π : ℂ)) * ((v i : ℂ) * solid (integrand h.ellMin h.ellMax (chi i) h.t[k] (modesOf (Props.FluxCovariance.rotated h Q D tmp) k) (modesOf (Props.FluxCovariance.rotated hd Q D' tmp') k))) =
      ((v i * (![x'.1, x'.2.1, x'.2.2] : Fin 3 → ℝ) i : ℝ) : ℂ) := by
    intro i
    rw [Complex.ofReal_mul, fx' i]
    show _ = (v i : ℂ) * (_ * solid (integrand h.ellMin h.ellMax (chi i) h.t[k] _ _))
    ring
  have t2 : ∀ i, (-1 / (32 * π : ℂ)) * ((rotateVec Q v i : ℂ) * solid (integrand h.ellMin h.ellMax (chi i) h.t[k] (modesOf h k) (modesOf hd k))) =
      ((rotateVec Q v i * (![x.1, x.2.1, x.2.2] : Fin 3 → ℝ) i : ℝ) : ℂ) := by
    intro i
    rw [Complex.ofReal_mul, fx i]
    ring
  rw [Finset.sum_congr rfl fun i _ => t1 i, Finset.sum_congr rfl fun i _ => t2 i] at key'
  exact_mod_cast key'

/-! ## The origin of time -/

/-- The same waveform with another origin of time. -/
noncomputable def shifted (τ : ℝ) (w : WM ℝ Unit ℂ) : WM ℝ Unit ℂ := { w with t := w.t.map (· + τ) }

theorem shifted_valid (τ : ℝ) {w : WM ℝ Unit ℂ} (hv : Valid w) : Valid (shifted τ w) :=
  ⟨by simp [shifted, hv.frame], by simp [shifted, hv.rows], hv.cols, hv.min, hv.max, hv.modes⟩

theorem integral_shifted (a b : Int) (χ : Int → Int → ℂ) (u τ : ℝ) (h N : Int → Int → ℂ) :
    solid (integrand a b χ (u + τ) h N) = solid (integrand a b χ u h N) - τ / 2 * solid fun θ φ => conj (field (-2) a b N θ φ) * field (-2) a b N θ φ * field 0 1 1 χ θ φ := by
  have e : solid (fun θ φ => conj (field (-2) a b N θ φ) * field (-2) a b N θ φ * field 0 1 1 χ θ φ) = S (fieldR (-2) a b N) (fieldR 0 1 1 χ) (fieldR (-2) a b N) := by
    unfold S sphere
    congr 1
    funext θ φ
    simp only [Props.FluxIntegral.field_fieldR]
    ring
  rw [e, ← form_integrand, ← form_integrand]
  unfold form
  push_cast
  ring

/-- C66: when the origin of time is shifted by `τ`, the boost flux changes by `τ/4` times the momentum flux that `momentum_flux` gives for
the same waveform.  (The flux of a charge `K - u P` would change by `τ` times the momentum flux: `boost_flux` and `momentum_flux` differ in
normalisation by this factor.) -/
theorem boost_flux_shifted (interp : WM ℝ Unit ℂ → List ℝ → WM ℝ Unit ℂ) (dot : WM ℝ Unit ℂ → WM ℝ Unit ℂ)
    (h : WM ℝ Unit ℂ) (hd : WM ℝ Unit ℂ) (hv : Valid h) (hn : 2 ≤ h.nCols) (dv : Valid hd) (ht : hd.t = h.t) (hmin : hd.ellMin = h.ellMin) (hmax : hd.ellMax = h.ellMax) (τ : ℝ) :
    ∃ B B' P, boostFlux interp Weights.h (-2) dot h (some (Weights.hdot, ⟨-2, hd⟩)) = .ok B ∧
      boostFlux interp Weights.h (-2) dot (shifted τ h) (some (Weights.hdot, ⟨-2, shifted τ hd⟩)) = .ok B' ∧ momentumFlux interp Weights.hdot (-2) dot hd = .ok P ∧
      B.length = h.t.length ∧ B'.length = h.t.length ∧ P.length = h.t.length ∧
      ∀ (k : Nat) (b b' p : ℝ × ℝ × ℝ), B[k]? = some b → B'[k]? = some b' → P[k]? = some p → ∀ i : Fin 3,
        (![b'.1, b'.2.1, b'.2.2] : Fin 3 → ℝ) i = (![b.1, b.2.1, b.2.2] : Fin 3 → ℝ) i + τ / 4 * (![p.1, p.2.1, p.2.2] : Fin 3 → ℝ) i := by
  have hcols : hd.nCols = h.nCols := by
    have h1 := hv.modes
    have h2 := dv.modes
    rw [hmin, hmax, ← h1] at h2
    omega
  obtain ⟨B, e1, l1, f1⟩ := boost_flux_integral interp dot h (some (Weights.hdot, ⟨-2, hd⟩)) ⟨-2, hd⟩ (Or.inr rfl) rfl hv hn dv (by rw [hcols]; exact hn) ht hmin hmax
  obtain ⟨B', e2, l2, f2⟩ := boost_flux_integral interp dot (shifted τ h) (some (Weights.hdot, ⟨-2, shifted τ hd⟩)) ⟨-2, shifted τ hd⟩
    (Or.inr rfl) rfl (shifted_valid τ hv) hn (shifted_valid τ dv) (by show 2 ≤ hd.nCols; rw [hcols]; exact hn) (by simp [shifted, ht]) hmin hmax
  obtain ⟨P, e3, l3, f3⟩ := Props.FluxIntegral.momentum_flux_integral interp Weights.hdot (-2) dot hd hd rfl dv (by rw [hcols]; exact hn)
  refine ⟨B, B', P, e1, e2, e3, l1, by rw [l2]; simp [shifted], by rw [l3, ht], fun k b b' p hb hb' hp i => ?_⟩
  have hk : k < h.t.length := by
    rw [← l1]
    by_contra hk
    rw [List.getElem?_eq_none (by omega)] at hb
    cases hb
  have hkP : k < P.length := by rw [l3, ht]; exact hk
  obtain ⟨x, hx, fx⟩ := f1 k _ (List.getElem?_eq_getElem hk)
  obtain ⟨x', hx', fx'⟩ := f2 k (h.t[k] + τ) (by simp [shifted, hk])
  have := Option.some.inj (hx.symm.trans hb); subst this
  have := Option.some.inj (hx'.symm.trans hb'); subst this
  have := Option.some.inj ((List.getElem?_eq_getElem hkP).symm.trans hp); subst this
  have g1 := fx i
  have g2 := fx' i
  have g3 := f3 k hkP i
  have g4 := integral_shifted h.ellMin h.ellMax (chi i) h.t[k] τ (modesOf h k) (modesOf hd k)
  simp only [chi_field] at g4
  rw [hmin, hmax] at g3
  have hpi : (π : ℂ) ≠ 0 := by exact_mod_cast Real.pi_ne_zero
  have g5 : -1 / (32 * π : ℂ) * solid (integrand h.ellMin h.ellMax (chi i) (h.t[k] + τ) (modesOf h k) (modesOf hd k)) = (((![x'.1, x'.2.1, x'.2.2] : Fin 3 → ℝ) i : ℝ) : ℂ) := g2.symm
  rw [g4] at g5
  have : (((![x'.1, x'.2.1, x'.2.2] : Fin 3 → ℝ) i : ℝ) : ℂ) = (((![x.1, x.2.1, x.2.2] : Fin 3 → ℝ) i + τ / 4 * (![P[k].1, P[k].2.1, P[k].2.2] : Fin 3 → ℝ) i : ℝ) : ℂ) := by
    rw [Complex.ofReal_add, Complex.ofReal_mul, g1, g3, ← g5]
    push_cast
    field_simp
    ring
  exact_mod_cast this

/-! ## All fluxes, and errors -/

/-- C66: `poincare_fluxes` is the four fluxes. -/
theorem poincare_fluxes (interp : WM ℝ Unit ℂ → List ℝ → WM ℝ Unit ℂ) (dot : WM ℝ Unit ℂ → WM ℝ Unit ℂ)
    (h : WM ℝ Unit ℂ) (hdot : Option (Int × Modes)) (d : Modes)
    (hd : (hdot = none ∧ d = ⟨-2, dot h⟩) ∨ hdot = some (Weights.hdot, d)) (hs : d.spin = -2)
    (hv : Valid h) (hn : 2 ≤ h.nCols) (dv : Valid d.w) (dn : 2 ≤ d.w.nCols) (ht : d.w.t = h.t)
    (hmin : d.w.ellMin = h.ellMin) (hmax : d.w.ellMax = h.ellMax) :
    ∃ E P J B, poincareFluxes interp Weights.h (-2) dot h hdot = .ok (E, P, J, B) ∧ energyFlux Weights.hdot dot d.w = .ok E ∧ momentumFlux interp Weights.hdot (-2) dot d.w = .ok P ∧
      angularMomentumFlux interp Weights.h (-2) dot h hdot = .ok J ∧ boostFlux interp Weights.h (-2) dot h hdot = .ok B ∧
      E.length = h.t.length ∧ P.length = h.t.length ∧ J.length = h.t.length ∧ B.length = h.t.length := by
  have hE := Props.Flux.energy_flux dot d.w dv
  have hP := Props.Flux.momentum_flux interp Weights.hdot (-2) dot d.w d.w rfl dv dn
  have hJ := fun hd' => Props.Flux.angular_momentum_flux interp (-2) dot h hd' d
  have hB := fun hd' => boost_flux_parts interp dot h hd' d
  have hJ1 := hJ hdot hd hs hv hn dv dn ht hmin hmax
  have hJ2 := hJ (some (Weights.hdot, d)) (Or.inr rfl) hs hv hn dv dn ht hmin hmax
  have hB1 := hB hdot hd hs hv hn dv dn ht hmin hmax
  have hB2 := hB (some (Weights.hdot, d)) (Or.inr rfl) hs hv hn dv dn ht hmin hmax
  have hchoose : givenHdot (-2) dot h hdot = .ok d := by
    rcases hd with ⟨h1, h2⟩ | h1
    · rw [h1, h2]; rfl
    · rw [h1]; rfl
  refine ⟨_, _, _, _, ?_, hE, hP, hJ1, hB1, by simp [ht], by simp [ht], by simp, by simp⟩
  have step : poincareFluxes interp Weights.h (-2) dot h hdot = (do
    let hd ← givenHdot (-2) dot h hdot
    let e ← energyFlux Weights.hdot dot hd.w
    let p ← momentumFlux interp Weights.hdot hd.spin dot hd.w
    let j ← angularMomentumFlux interp Weights.h (-2) dot h (some (Weights.hdot, hd))
    let b ← boostFlux interp Weights.h (-2) dot h (some (Weights.hdot, hd))
    pure (e, p, j, b)) := rfl
  rw [step, hchoose, ok_bind, hE, ok_bind, hs, hP, ok_bind, hJ2, ok_bind, hB2, ok_bind]
  rfl

/-- C66: data that are not a strain, or a given derivative that is not the derivative of a strain, are rejected by both functions. -/
theorem boost_flux_rejects (interp : WM ℝ Unit ℂ → List ℝ → WM ℝ Unit ℂ) (dt spin : Int) (dot : WM ℝ Unit ℂ → WM ℝ Unit ℂ) (h : WM ℝ Unit ℂ) (hdot : Option (Int × Modes))
    (hbad : dt ≠ Weights.h ∨ ∃ ty d, hdot = some (ty, d) ∧ ty ≠ Weights.hdot) :
    boostFlux interp dt spin dot h hdot = .error .valueError ∧ poincareFluxes interp dt spin dot h hdot = .error .valueError := by
  by_cases hdt : dt ≠ Weights.h
  · constructor
    · unfold boostFlux
      simp only [if_pos hdt]
      rfl
    · unfold poincareFluxes
      simp only [if_pos hdt]
      rfl
  · obtain ⟨ty, d, rfl, hty⟩ := hbad.resolve_left hdt
    have e : givenHdot spin dot h (some (ty, d)) = .error .valueError := if_pos hty
    constructor
    · unfold boostFlux
      simp only [if_neg hdt, e]
      rfl
    · unfold poincareFluxes
      simp only [if_neg hdt, e]
      rfl

/-- The hypotheses are met by the example waveform. -/
example (interp : WM ℝ Unit ℂ → List ℝ → WM ℝ Unit ℂ) (dot : WM ℝ Unit ℂ → WM ℝ Unit ℂ) (D tmp D' tmp' : Row ℂ) :
    (∃ E P J B, poincareFluxes interp Weights.h (-2) dot sample (some (Weights.hdot, ⟨-2, sample⟩)) = .ok (E, P, J, B) ∧ B.length = 2) ∧
      ∃ B', boostFlux interp Weights.h (-2) dot (Props.FluxCovariance.rotated sample Props.Rotation.qi D tmp) (some (Weights.hdot, ⟨-2, Props.FluxCovariance.rotated sample Props.Rotation.qi D' tmp'⟩)) = .ok B' ∧ B'.length = 2 := by
  obtain ⟨E, P, J, B, h1, _, _, _, _, _, _, _, h2⟩ := poincare_fluxes interp dot sample (some (Weights.hdot, ⟨-2, sample⟩)) ⟨-2, sample⟩ (Or.inr rfl) rfl sample_valid (by decide) sample_valid (by decide) rfl rfl rfl
  obtain ⟨_, B', _, h3, _, h4, _⟩ := boost_flux_rotated interp dot sample sample sample_valid (by decide) sample_valid rfl rfl rfl Props.Rotation.qi Props.Rotation.qi_unit D tmp D' tmp'
  exact ⟨⟨E, P, J, B, h1, h2⟩, B', h3, h4⟩

end Verif.Props.BoostFlux
