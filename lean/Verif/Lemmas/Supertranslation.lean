import Verif.Lemmas.Triple

/-!
# Integrals over the sphere for supertranslations
-/

namespace Verif.Supertranslation
open Verif.GridMultiply Verif.Spec.Sphere Verif.Spec.Boost Verif.Balance Verif.SphereParts Verif.Props.SphereOps Verif.Charges Verif.Triple ComplexConjugate

variable {b : Int} (i : Fin 3)

/-! ## Identities of modes -/

theorem commute (g : Modes) : Agree 0 b (ethbar 0 (ethbar 1 (eth 0 g))) (fun ell m => eth (-2) (ethbar (-1) (ethbar 0 g)) ell m + -2 * ethbar 0 g ell m) := by
  intro ell m h1 _ _
  unfold eth ethbar
  rcases eq_or_lt_of_le h1 with rfl | h1
  · norm_num
  have hl : (1 : ℝ) ≤ ell := by exact_mod_cast h1
  push_cast
  generalize (ell : ℝ) = x at *
  rw [show (x + 0) * (x - 0 + 1) = x * (x + 1) by ring, show (x + 1) * (x - 1 + 1) = x * (x + 1) by ring, show (x - 0) * (x + 0 + 1) = x * (x + 1) by ring,
    show (x - -2) * (x + -2 + 1) = (x + 2) * (x - 1) by ring, show (x + -1) * (x - -1 + 1) = (x + 2) * (x - 1) by ring]
  have e1 : ((√(x * (x + 1)) : ℝ) : ℂ) * ((√(x * (x + 1)) : ℝ) : ℂ) = x * (x + 1) := by
    rw [← Complex.ofReal_mul, Real.mul_self_sqrt (by nlinarith)]; push_cast; ring
  have e2 : ((√((x + 2) * (x - 1)) : ℝ) : ℂ) * ((√((x + 2) * (x - 1)) : ℝ) : ℂ) = (x + 2) * (x - 1) := by
    rw [← Complex.ofReal_mul, Real.mul_self_sqrt (by nlinarith)]; push_cast; ring
  linear_combination (((√(x * (x + 1)) : ℝ) : ℂ) * g ell m) * (e1 - e2)

/-- `ð̄²ð² = ð²ð̄²` is multiplication by `(ell + 2)(ell + 1) ell (ell - 1)`. -/
theorem four (g : Modes) (ell m : Int) (h0 : 0 ≤ ell) :
    ethbar 1 (ethbar 2 (eth 1 (eth 0 g))) ell m = ((ell + 2) * (ell + 1) * ell * (ell - 1) : ℂ) * g ell m ∧
    eth (-1) (eth (-2) (ethbar (-1) (ethbar 0 g))) ell m = ((ell + 2) * (ell + 1) * ell * (ell - 1) : ℂ) * g ell m := by
  unfold eth ethbar
  rcases eq_or_lt_of_le h0 with rfl | h1
  · norm_num
  have hl : (1 : ℝ) ≤ ell := by exact_mod_cast h1
  have hx : (ell : ℂ) = ((ell : ℝ) : ℂ) := by norm_cast
  push_cast
  rw [hx]
  generalize (ell : ℝ) = x at *
  rw [show (x + 0) * (x - 0 + 1) = x * (x + 1) by ring, show (x + 1) * (x - 1 + 1) = x * (x + 1) by ring, show (x - 0) * (x + 0 + 1) = x * (x + 1) by ring,
    show (x - -2) * (x + -2 + 1) = (x + 2) * (x - 1) by ring, show (x + -1) * (x - -1 + 1) = (x + 2) * (x - 1) by ring, show (x - -1) * (x + -1 + 1) = x * (x + 1) by ring,
    show (x - 1) * (x + 1 + 1) = (x + 2) * (x - 1) by ring, show (x + 2) * (x - 2 + 1) = (x + 2) * (x - 1) by ring]
  have e1 : ((√(x * (x + 1)) : ℝ) : ℂ) * ((√(x * (x + 1)) : ℝ) : ℂ) = x * (x + 1) := by
    rw [← Complex.ofReal_mul, Real.mul_self_sqrt (by nlinarith)]; push_cast; ring
  have e2 : ((√((x + 2) * (x - 1)) : ℝ) : ℂ) * ((√((x + 2) * (x - 1)) : ℝ) : ℂ) = (x + 2) * (x - 1) := by
    rw [← Complex.ofReal_mul, Real.mul_self_sqrt (by nlinarith)]; push_cast; ring
  constructor <;> linear_combination g ell m * (((√((x + 2) * (x - 1)) : ℝ) : ℂ) * ((√((x + 2) * (x - 1)) : ℝ) : ℂ)) * e1 + g ell m * (x * (x + 1)) * e2

/-! ## Identities of integrals -/

/-- `∫ F (ð̄n ðg + ðn ð̄g + 2 n g)`. -/
noncomputable def Dk (b : Int) (i : Fin 3) (g F : Modes) : ℂ :=
  T b (-1) (ethbar 0 (chi i)) 0 F 1 (eth 0 g) + T b 1 (eth 0 (chi i)) 0 F (-1) (ethbar 0 g) + 2 * T b 0 (chi i) 0 F 0 g

noncomputable def X1 (b : Int) (i : Fin 3) (S g : Modes) : ℂ := T b 0 (chi i) 2 S (-2) (ethbar (-1) (ethbar 0 g))
noncomputable def X2 (b : Int) (i : Fin 3) (S g : Modes) : ℂ := T b 1 (eth 0 (chi i)) 2 S (-3) (ethbar (-2) (ethbar (-1) (ethbar 0 g)))
noncomputable def X3 (b : Int) (i : Fin 3) (S g : Modes) : ℂ := T b (-1) (ethbar 0 (chi i)) 2 S (-1) (eth (-2) (ethbar (-1) (ethbar 0 g)))

theorem key (S g : Modes) : Dk b i g (ethbar 1 (ethbar 2 S)) = -2 * X1 b i S g + X2 b i S g + X3 b i S g := by
  have h1 := p_ethbar_ethbar (b := b) i 1 (ethbar 2 S) 1 (eth 0 g) (by norm_num)
  have h2 := p_ethbar_ethbar (b := b) i 2 S 0 (ethbar 1 (eth 0 g)) (by norm_num)
  have h3 := p_eth_ethbar (b := b) i 1 (ethbar 2 S) (-1) (ethbar 0 g) (by norm_num)
  have h4 := p_chi_ethbar (b := b) i 2 S (-1) (ethbar 0 g) (by norm_num)
  have h5 := p_eth_ethbar (b := b) i 2 S (-2) (ethbar (-1) (ethbar 0 g)) (by norm_num)
  have h6 := p_chi_ethbar (b := b) i 1 (ethbar 2 S) 0 g (by norm_num)
  have h7 := p_ethbar_ethbar (b := b) i 2 S 0 g (by norm_num)
  rw [show (0 : Int) - 1 = -1 by norm_num, show (2 : Int) - 1 = 1 by norm_num] at h2 h7
  rw [show (1 : Int) - 1 = 0 by norm_num] at h1
  rw [show (1 : Int) - 1 = 0 by norm_num, show (-1 : Int) - 1 = -2 by norm_num] at h3
  rw [show (2 : Int) - 1 = 1 by norm_num, show (-1 : Int) - 1 = -2 by norm_num] at h4
  rw [show (2 : Int) - 1 = 1 by norm_num, show (-2 : Int) - 1 = -3 by norm_num] at h5
  rw [show (1 : Int) - 1 = 0 by norm_num, show (0 : Int) - 1 = -1 by norm_num] at h6
  rw [T_congr (Agree.refl (ethbar 0 (chi i))) (Agree.refl S) (commute g), T_add', T_smul'] at h2
  unfold Dk X1 X2 X3
  linear_combination h1 - h2 + h3 + 2 * h6 - h5 - 2 * h7

theorem Dk_congr {g F F' : Modes} (h : Agree 0 b F F') : Dk b i g F = Dk b i g F' := by
  unfold Dk
  rw [T_congr (Agree.refl (ethbar 0 (chi i))) h (Agree.refl (eth 0 g)), T_congr (Agree.refl (eth 0 (chi i))) h (Agree.refl (ethbar 0 g)), T_congr (Agree.refl (chi i)) h (Agree.refl g)]

theorem Dk_add (g F F' : Modes) : Dk b i g (fun ell m => F ell m + F' ell m) = Dk b i g F + Dk b i g F' := by
  unfold Dk; rw [T_add, T_add, T_add]; ring
theorem Dk_smul (k : ℂ) (g F : Modes) : Dk b i g (fun ell m => k * F ell m) = k * Dk b i g F := by
  unfold Dk; rw [T_smul, T_smul, T_smul]; ring

variable {g : Modes} (hg : Agree 0 b (bar 0 g) g)
include hg

theorem bar_eth0 : Agree 0 b (bar 1 (eth 0 g)) (ethbar 0 g) := by
  have h := bar_eth 0 g
  rw [show (0 : Int) + 1 = 1 by norm_num, neg_zero] at h
  rw [h]
  exact hg.ethbar 0
theorem bar_ethbar0 : Agree 0 b (bar (-1) (ethbar 0 g)) (eth 0 g) := by
  have h := bar_ethbar 0 g
  rw [show (0 : Int) - 1 = -1 by norm_num, neg_zero] at h
  rw [h]
  exact hg.eth 0
theorem bar_eth2 : Agree 0 b (bar 2 (eth 1 (eth 0 g))) (ethbar (-1) (ethbar 0 g)) := by
  have h := bar_eth 1 (eth 0 g)
  rw [show (1 : Int) + 1 = 2 by norm_num] at h
  rw [h]
  exact (bar_eth0 hg).ethbar (-1)

theorem Dk_conj (F : Modes) : conj (Dk b i g F) = Dk b i g (bar 0 F) := by
  have h1 := conj_ebar (b := b) i 0 F 1 (eth 0 g)
  have h2 := conj_ebar (b := b) i 0 (bar 0 F) 1 (eth 0 g)
  have h3 := conj_chi (b := b) i 0 F 0 g
  rw [neg_zero] at h1 h2 h3
  have bb : bar 0 (bar 0 F) = F := Verif.Props.Charges.bar_bar F
  rw [bb] at h2
  rw [T_congr (Agree.refl _) (Agree.refl _) (bar_eth0 hg)] at h1 h2
  rw [T_congr (Agree.refl _) (Agree.refl _) hg] at h3
  unfold Dk
  rw [map_add, map_add, map_mul, Complex.conj_ofNat, h1, h3, ← h2, Complex.conj_conj]
  ring

/-- The terms that are linear in the shear. -/
theorem linear_part (S : Modes) :
    let l := T b (-1) (ethbar 0 (chi i)) 2 (eth 1 (eth 0 g)) (-1) (eth (-2) (bar 2 S)) + X3 b i S g
    l - conj l = Dk b i g (ethbar 1 (ethbar 2 S)) - conj (Dk b i g (ethbar 1 (ethbar 2 S))) := by
  intro l
  have h5 := p_eth_ethbar (b := b) i 2 S (-2) (ethbar (-1) (ethbar 0 g)) (by norm_num)
  rw [show (2 : Int) - 1 = 1 by norm_num, show (-2 : Int) - 1 = -3 by norm_num] at h5
  have c := conj_ebar (b := b) i 2 (eth 1 (eth 0 g)) (-1) (eth (-2) (bar 2 S))
  have e : bar (-1) (eth (-2) (bar 2 S)) = ethbar 2 S := by
    have h := bar_eth (-2) (bar 2 S)
    rwa [show (-2 : Int) + 1 = -1 by norm_num, neg_neg, bar_bar] at h
  rw [e, neg_neg, T_congr (Agree.refl _) (bar_eth2 hg) (Agree.refl _), T_swap 1 (eth 0 (chi i)) (-2)] at c
  have c' := congrArg conj c
  rw [Complex.conj_conj] at c'
  have h5' := congrArg conj h5
  rw [map_add, map_mul, Complex.conj_ofNat] at h5'
  show T b (-1) (ethbar 0 (chi i)) 2 (eth 1 (eth 0 g)) (-1) (eth (-2) (bar 2 S)) + X3 b i S g - conj (T b (-1) (ethbar 0 (chi i)) 2 (eth 1 (eth 0 g)) (-1) (eth (-2) (bar 2 S)) + X3 b i S g) = _
  rw [key, map_add, map_add, map_add, map_mul, map_neg, Complex.conj_ofNat, c, c']
  unfold X1 X2 X3
  linear_combination h5' - h5

/-- The term that is quadratic in the supertranslation. -/
theorem quadratic_part : conj (X3 b i (eth 1 (eth 0 g)) g) = X3 b i (eth 1 (eth 0 g)) g := by
  have h := linear_part i hg (eth 1 (eth 0 g))
  have e : T b (-1) (ethbar 0 (chi i)) 2 (eth 1 (eth 0 g)) (-1) (eth (-2) (bar 2 (eth 1 (eth 0 g)))) = X3 b i (eth 1 (eth 0 g)) g :=
    T_congr (Agree.refl _) (Agree.refl _) ((bar_eth2 hg).eth (-2))
  have r : conj (Dk b i g (ethbar 1 (ethbar 2 (eth 1 (eth 0 g))))) = Dk b i g (ethbar 1 (ethbar 2 (eth 1 (eth 0 g)))) := by
    rw [Dk_conj i hg]
    refine Dk_congr i fun ell m h1 h2 h3 => ?_
    unfold bar
    rw [(four g ell (-m) h1).1, (four g ell m h1).1, map_mul]
    have := hg ell m h1 h2 h3
    unfold bar at this
    rw [← this]
    simp only [map_mul, map_add, map_sub, map_one, Complex.conj_ofNat, map_intCast]
    ring
  simp only [e, r, map_add] at h
  linear_combination (-1 / 2) * h

/-- The imaginary part of `ψ₂`. -/
theorem imaginary_part (K S : Modes) (hK : Agree 0 b (fun ell m => 4 * K ell m) (fun ell m => ethbar 1 (ethbar 2 S) ell m + -1 * eth (-1) (eth (-2) (bar 2 S)) ell m)) :
    let k := 3 * T b (-1) (ethbar 0 (chi i)) 0 K 1 (eth 0 g) + T b (-1) (ethbar 0 (chi i)) 1 (eth 0 K) 0 g
    k - conj k = 1 / 2 * (Dk b i g (ethbar 1 (ethbar 2 S)) - conj (Dk b i g (ethbar 1 (ethbar 2 S)))) := by
  intro k
  have p := p_ethbar_eth (b := b) i 0 K 0 g (by norm_num)
  rw [show (0 : Int) + 1 = 1 by norm_num] at p
  have ek : k = 2 * T b (-1) (ethbar 0 (chi i)) 0 K 1 (eth 0 g) + 2 * T b 0 (chi i) 0 K 0 g := by
    show 3 * T b (-1) (ethbar 0 (chi i)) 0 K 1 (eth 0 g) + T b (-1) (ethbar 0 (chi i)) 1 (eth 0 K) 0 g = _
    linear_combination p
  have bS : bar 0 (ethbar 1 (ethbar 2 S)) = eth (-1) (eth (-2) (bar 2 S)) := by
    have h := bar_ethbar 1 (ethbar 2 S)
    have h' := bar_ethbar 2 S
    rw [show (1 : Int) - 1 = 0 by norm_num] at h
    rw [show (2 : Int) - 1 = 1 by norm_num] at h'
    rw [h, h']
  have bK : Agree 0 b (bar 0 K) (fun ell m => -1 * K ell m) := by
    intro ell m h1 h2 h3
    have e1 : 4 * K ell (-m) = ethbar 1 (ethbar 2 S) ell (-m) + -1 * eth (-1) (eth (-2) (bar 2 S)) ell (-m) := hK ell (-m) h1 h2 (by rwa [abs_neg])
    have e2 : 4 * K ell m = ethbar 1 (ethbar 2 S) ell m + -1 * eth (-1) (eth (-2) (bar 2 S)) ell m := hK ell m h1 h2 h3
    have b1 : (-1) ^ (0 + m).natAbs * conj (ethbar 1 (ethbar 2 S) ell (-m)) = eth (-1) (eth (-2) (bar 2 S)) ell m := congrFun (congrFun bS ell) m
    have b2 : (-1) ^ (0 + m).natAbs * conj (eth (-1) (eth (-2) (bar 2 S)) ell (-m)) = ethbar 1 (ethbar 2 S) ell m := by
      show bar 0 (eth (-1) (eth (-2) (bar 2 S))) ell m = _
      rw [← bS, Verif.Props.Charges.bar_bar]
    show (-1) ^ (0 + m).natAbs * conj (K ell (-m)) = -1 * K ell m
    have e3 := congrArg conj e1
    rw [map_mul, map_add, map_mul, Complex.conj_ofNat, map_neg, map_one] at e3
    linear_combination (1 / 4) * (-1) ^ (0 + m).natAbs * e3 + 1 / 4 * b1 - 1 / 4 * b2 + 1 / 4 * e2
  have c1 := conj_ebar (b := b) i 0 K 1 (eth 0 g)
  have c2 := conj_chi (b := b) i 0 K 0 g
  rw [neg_zero] at c1 c2
  rw [T_congr (Agree.refl _) bK (bar_eth0 hg), T_smul] at c1
  rw [T_congr (Agree.refl _) bK hg, T_smul] at c2
  have d4 : 4 * Dk b i g K = Dk b i g (ethbar 1 (ethbar 2 S)) - conj (Dk b i g (ethbar 1 (ethbar 2 S))) := by
    rw [← Dk_smul, Dk_congr i hK, Dk_add, Dk_smul, Dk_conj i hg, bS]
    ring
  rw [ek, map_add, map_mul, map_mul, Complex.conj_ofNat, c1, c2, ← d4]
  unfold Dk
  ring

/-- The real part of `ψ₂`. -/
theorem real_part (R : Modes) (hR : Agree 0 b (bar 0 R) R) :
    let r := T b (-1) (ethbar 0 (chi i)) 0 R 1 (eth 0 g) + T b (-1) (ethbar 0 (chi i)) 1 (eth 0 R) 0 g
    r - conj r = 0 := by
  intro r
  have p := p_ethbar_eth (b := b) i 0 R 0 g (by norm_num)
  rw [show (0 : Int) + 1 = 1 by norm_num] at p
  have er : r = 2 * T b 0 (chi i) 0 R 0 g := by
    show T b (-1) (ethbar 0 (chi i)) 0 R 1 (eth 0 g) + T b (-1) (ethbar 0 (chi i)) 1 (eth 0 R) 0 g = _
    linear_combination p
  have c := conj_chi (b := b) i 0 R 0 g
  rw [neg_zero, T_congr (Agree.refl _) hR hg] at c
  rw [er, map_mul, Complex.conj_ofNat, c, sub_self]

end Verif.Supertranslation
