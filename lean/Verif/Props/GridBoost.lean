import Verif.Props.GridModes
import Verif.Props.AbdCompose

/-!
# `WaveformGrid.from_modes` for all transformations (C60)
-/

namespace Verif.Props.GridModes

open Verif Verif.Modes Verif.GridModes Verif.GridModes.Spec Verif.TransformKwargs Verif.AbdTransform
open Verif.GridMultiply (Y rect)
open Verif.GridMultiply.Spec (expansion modesOf)

theorem gridProcess_ok {n : Int} {kw : Kw} {r : GridResult} (h : gridProcess n kw = .ok r) :
    ∃ row, gridSuperInput kw = .ok (r.ellMaxSuper, row) ∧ translations kw row = .ok r.supertranslation ∧ gridPoints kw.n_theta n r.ellMaxSuper = .ok r.n_theta ∧
      gridPoints kw.n_phi n r.ellMaxSuper = .ok r.n_phi ∧ rotor kw = .ok r.frame_rotation ∧ velocity kw = .ok r.boost_velocity ∧ r.ell_max = n + r.ellMaxSuper := by
  unfold gridProcess at h
  cases h1 : gridSuperInput kw with
  | error e => rw [h1] at h; cases h
  | ok p =>
  simp only [h1, ok_bind] at h
  cases h2 : translations kw p.2 with
  | error e => rw [h2] at h; cases h
  | ok row =>
  simp only [h2, ok_bind] at h
  cases h3 : gridPoints kw.n_theta n p.1 with
  | error e => rw [h3] at h; cases h
  | ok nt =>
  simp only [h3, ok_bind] at h
  cases h4 : gridPoints kw.n_phi n p.1 with
  | error e => rw [h4] at h; cases h
  | ok np =>
  simp only [h4, ok_bind] at h
  cases h5 : rotor kw with
  | error e => rw [h5] at h; cases h
  | ok R =>
  simp only [h5, ok_bind] at h
  cases h6 : velocity kw with
  | error e => rw [h6] at h; cases h
  | ok v =>
  simp only [h6, ok_bind, pure_eq_ok] at h
  have := Except.ok.inj h
  subst this
  exact ⟨p.2, rfl, h2, h3, h4, rfl, rfl, rfl⟩

theorem gridSuperInput_nonneg {kw : Kw} {L : Int} {row : Row ℂ} (h : gridSuperInput kw = .ok (L, row)) : 0 ≤ L := by
  unfold gridSuperInput at h
  cases hk : kw.supertranslation with
  | none =>
    rw [hk] at h
    have := congrArg Prod.fst (Except.ok.inj h)
    simp only at this
    omega
  | some l =>
    rw [hk] at h
    simp only at h
    cases he : ellMaxOf (pad l) with
    | error e =>
      rw [he] at h
      cases h
    | ok n =>
      rw [he, ok_bind] at h
      cases hc : checkReality n (toRow (pad l)) with
      | error e =>
        rw [hc] at h
        cases h
      | ok u =>
        rw [hc, ok_bind, pure_eq_ok] at h
        have h := congrArg Prod.fst (Except.ok.inj h)
        simp only at h
        subst h
        unfold ellMaxOf at he
        simp only at he
        split at he
        · cases he
        · have he := Except.ok.inj he
          have h4 : 1 ≤ (pad l).length := by
            unfold pad
            split
            · rw [List.length_append, List.length_replicate]
              omega
            · omega
          have := Nat.le_sqrt.mpr (show 1 * 1 ≤ (pad l).length by omega)
          omega

theorem velocity_vabs {kw : Kw} {v : List ℝ} (h : velocity kw = .ok v) : vabs (vec3 v) < 1 := by
  unfold velocity at h
  simp only at h
  split at h
  · cases h
  · rename_i hc
    rw [not_or, not_not, not_le] at hc
    rw [← Except.ok.inj h]
    obtain ⟨hl, hc⟩ := hc
    generalize kw.boost_velocity.getD [0, 0, 0] = l at *
    match l, hl with
    | [a, b, c], _ =>
      have e : vabs (vec3 [a, b, c]) = √(a ^ 2 + b ^ 2 + c ^ 2) := by simp [vabs, vec3]
      rw [e]
      simpa [add_assoc] using hc

theorem rotor_unit {kw : Kw} {R : Quaternion ℝ} (h : rotor kw = .ok R) : Quaternion.normSq R = 1 := by
  unfold TransformKwargs.rotor at h
  rcases hq : mkQuaternion (kw.frame_rotation.getD [1, 0, 0, 0]) with e | q
  · rw [hq] at h; cases h
  rw [hq, ok_bind] at h
  split at h
  · cases h
  · rename_i hc
    rw [← Except.ok.inj h]
    have hpos : 0 < √(Quaternion.normSq q) := lt_of_lt_of_le (by norm_num) (not_lt.mp hc)
    rw [Quaternion.normSq_smul, inv_pow, Real.sq_sqrt Quaternion.normSq_nonneg, inv_mul_cancel₀]
    exact (Real.sqrt_pos.mp hpos).ne'

theorem normSq_vecQuat (v : Fin 3 → ℝ) : Quaternion.normSq (vecQuat v) = ∑ i, v i ^ 2 := by
  rw [Quaternion.normSq_def', Fin.sum_univ_three]
  show (0 : ℝ) ^ 2 + v 0 ^ 2 + v 1 ^ 2 + v 2 ^ 2 = _
  ring

theorem rotateVec_length (R : Quaternion ℝ) (hR : Quaternion.normSq R = 1) (v : Fin 3 → ℝ) : ∑ i, rotateVec R v i ^ 2 = ∑ i, v i ^ 2 := by
  rw [← normSq_vecQuat, Props.AbdTransform.vecQuat_rotateVec, map_mul, map_mul, Quaternion.normSq_star, hR, normSq_vecQuat]
  ring

theorem zhat_length : ∑ i, zhat i ^ 2 = 1 := by simp [zhat, Fin.sum_univ_three]

theorem unit_normSq {R : Quaternion ℝ} (h : Verif.GridMultiply.Spec.Unit R) : Quaternion.normSq R = 1 := by
  rw [Quaternion.normSq_def']
  exact h

theorem vabs_sq (v : Fin 3 → ℝ) : vabs v ^ 2 = ∑ i, v i ^ 2 := by
  rw [vabs, Real.sq_sqrt (by positivity), Fin.sum_univ_three]

theorem shift_trivial {r : GridResult} (h : isTrivial r = true) (dt : Int) (R : Quaternion ℝ) : shift dt r.ellMaxSuper (superModes r.supertranslation) R = 0 := by
  have h := (of_decide_eq_true h).2
  have hz : ∀ ell m : Int, 0 ≤ ell → ell ≤ r.ellMaxSuper → -ell ≤ m → m ≤ ell → ell ≠ 0 → superModes r.supertranslation ell m = 0 := by
    intro ell m h1 h2 h3 h4 h5
    refine h _ (mem_pyRange.mpr ?_)
    have hb := lmIndex_block 0 ⟨h3, h4⟩
    have h6 : 1 ≤ ell := by omega
    constructor <;> nlinarith
  have he : ∀ (s : Int) (f : Int → Int → ℂ), (∀ ell m : Int, 0 ≤ ell → ell ≤ r.ellMaxSuper → -ell ≤ m → m ≤ ell → f ell m = 0) → expansion s r.ellMaxSuper f R = 0 := by
    intro s f hf
    refine Finset.sum_eq_zero fun ell h1 => Finset.sum_eq_zero fun m h2 => ?_
    rw [Finset.mem_Icc] at h1 h2
    rw [hf ell m h1.1 h1.2 h2.1 h2.2, zero_mul]
  unfold shift
  split
  · rw [he, neg_zero]
    intro ell m h1 h2 h3 h4
    by_cases h0 : ell = 0
    · subst h0
      simp [Charges.ethbarGHP]
    · simp [Charges.ethbarGHP, hz ell m h1 h2 h3 h4 h0]
  · split
    · rw [he, neg_zero]
      intro ell m h1 h2 h3 h4
      by_cases h0 : ell = 0
      · subst h0
        simp [Charges.ethGHP]
      · simp [Charges.ethGHP, hz ell m h1 h2 h3 h4 h0]
    · rfl

theorem gridMixed_shift (r : GridResult) (g : ℝ) (dt : Int) (hdt : dt ∈ [Weights.psi4, Weights.sigma, Weights.h, Weights.hdot, Weights.news]) (R : Quaternion ℝ) (t : ℝ) (f : ℂ) (other : Int → Option ℂ) :
    gridMixed g (isTrivial r) dt (direction r g R) t f other = .ok (f + shift dt r.ellMaxSuper (superModes r.supertranslation) R) := by
  unfold gridMixed
  by_cases ht : isTrivial r = true
  · rw [if_pos ht, shift_trivial ht, add_zero]
  · rw [if_neg ht]
    unfold shift
    by_cases h1 : dt = Weights.h
    · rw [if_pos h1, if_pos h1, ← sub_eq_add_neg, ← dot_eq]
      rfl
    · rw [if_neg h1, if_neg h1]
      by_cases h2 : dt = Weights.sigma
      · rw [if_pos h2, if_pos h2, ← sub_eq_add_neg, ← dot_eq]
        rfl
      · rw [if_neg h2, if_neg h2, if_neg, add_zero]
        simp only [List.mem_cons, List.not_mem_nil, or_false] at hdt ⊢
        rcases hdt with rfl | rfl | rfl | rfl | rfl <;> decide

/-- The modes of `v · r` are those of a function that takes the value `v · r` in the direction of every rotor. -/
theorem vDotR_value (v : Fin 3 → ℝ) (R : Quaternion ℝ) : expansion 0 1 (vDotR v) R = ((∑ i, v i * dir R i : ℝ) : ℂ) := by
  have hnu0 : Wigner.nu 2 0 = √2 := by simp [Wigner.nu, Nat.factorial]
  have hnu1 : Wigner.nu 2 1 = 1 := by simp [Wigner.nu, Nat.factorial]
  have hnu2 : Wigner.nu 2 2 = √2 := by simp [Wigner.nu, Nat.factorial]
  have h2 : (√2 : ℝ) ≠ 0 := (Real.sqrt_pos.mpr two_pos).ne'
  have e1 : √(3 / (4 * Real.pi)) * √(2 * Real.pi / 3) = (√2)⁻¹ := by
    rw [← Real.sqrt_mul (by positivity), ← Real.sqrt_inv]
    congr 1
    field_simp
    norm_num
  have e2 : √(3 / (4 * Real.pi)) * √(4 * Real.pi / 3) = 1 := by
    rw [← Real.sqrt_mul (by positivity), Real.sqrt_eq_one]
    field_simp
  have c0 : ∀ p q r s : ℂ, Wigner.coef 2 p q r s 0 1 = 2 * r * s := by
    intro p q r s
    simp [Wigner.coef, Finset.sum_filter, Finset.sum_range_succ]
  have c1 : ∀ p q r s : ℂ, Wigner.coef 2 p q r s 1 1 = p * s + q * r := by
    intro p q r s
    simp [Wigner.coef, Finset.sum_filter, Finset.sum_range_succ]
  have c2 : ∀ p q r s : ℂ, Wigner.coef 2 p q r s 2 1 = 2 * p * q := by
    intro p q r s
    simp [Wigner.coef, Finset.sum_filter, Finset.sum_range_succ]
  have hS : √((2 * ((1 : Int) : ℝ) + 1) / (4 * Real.pi)) = √(3 / (4 * Real.pi)) := by norm_num
  have hY : ∀ m : Int, Y 0 1 m R = ((√(3 / (4 * Real.pi)) : ℝ) : ℂ) * Wigner.D 2 R (1 + m).toNat 1 := by
    intro m
    unfold Y
    rw [if_pos (by norm_num), hS]
    simp [Wigner.Dlm]
  have h22 : ((1 / √2 : ℝ) : ℂ) * 2 = ((√2 : ℝ) : ℂ) := by
    rw [← Complex.ofReal_ofNat, ← Complex.ofReal_mul]
    congr 1
    field_simp
    norm_num
  have hm : Y 0 1 (-1) R = ((√(3 / (4 * Real.pi)) * √2 : ℝ) : ℂ) * (Wigner.Rb R * (starRingEnd ℂ) (Wigner.Ra R)) := by
    rw [hY, show ((1 : Int) + -1).toNat = 0 by rfl, Wigner.D, hnu0, hnu1, c0, Complex.ofReal_mul, ← h22]
    ring
  have h0 : Y 0 1 0 R = ((√(3 / (4 * Real.pi)) : ℝ) : ℂ) * (Wigner.Ra R * (starRingEnd ℂ) (Wigner.Ra R) - Wigner.Rb R * (starRingEnd ℂ) (Wigner.Rb R)) := by
    rw [hY, show ((1 : Int) + 0).toNat = 1 by rfl, Wigner.D, hnu1, c1, div_one, Complex.ofReal_one]
    ring
  have hp : Y 0 1 1 R = -(((√(3 / (4 * Real.pi)) * √2 : ℝ) : ℂ) * (Wigner.Ra R * (starRingEnd ℂ) (Wigner.Rb R))) := by
    rw [hY, show ((1 : Int) + 1).toNat = 2 by rfl, Wigner.D, hnu2, hnu1, c2, Complex.ofReal_mul, ← h22]
    ring
  have hx : expansion 0 1 (vDotR v) R = vDotR v 1 (-1) * Y 0 1 (-1) R + vDotR v 1 0 * Y 0 1 0 R + vDotR v 1 1 * Y 0 1 1 R := by
    unfold expansion
    rw [show Finset.Icc (0 : Int) 1 = {0, 1} by rfl, Finset.sum_pair (by norm_num), show Finset.Icc (-(0 : Int)) 0 = {0} by rfl, show Finset.Icc (-(1 : Int)) 1 = {-1, 0, 1} by rfl, Finset.sum_singleton,
      Finset.sum_insert (by decide), Finset.sum_pair (by decide), show vDotR v 0 0 = 0 from rfl]
    ring
  have hv1 : vDotR v 1 (-1) = (⟨v 0, v 1⟩ : ℂ) * (√(2 * Real.pi / 3) : ℝ) := rfl
  have hv2 : vDotR v 1 0 = ((v 2 * √(4 * Real.pi / 3) : ℝ) : ℂ) := rfl
  have hv3 : vDotR v 1 1 = (⟨-(v 0), v 1⟩ : ℂ) * (√(2 * Real.pi / 3) : ℝ) := rfl
  have e1' : ((√(2 * Real.pi / 3) : ℝ) : ℂ) * ((√(3 / (4 * Real.pi)) * √2 : ℝ) : ℂ) = 1 := by
    rw [← Complex.ofReal_mul, show √(2 * Real.pi / 3) * (√(3 / (4 * Real.pi)) * √2) = √(3 / (4 * Real.pi)) * √(2 * Real.pi / 3) * √2 by ring, e1, inv_mul_cancel₀ h2, Complex.ofReal_one]
  have e2' : ((v 2 * √(4 * Real.pi / 3) : ℝ) : ℂ) * ((√(3 / (4 * Real.pi)) : ℝ) : ℂ) = (v 2 : ℝ) := by
    rw [← Complex.ofReal_mul, mul_assoc, mul_comm (√(4 * Real.pi / 3)), e2, mul_one]
  have hsum : expansion 0 1 (vDotR v) R = (⟨v 0, v 1⟩ : ℂ) * (Wigner.Rb R * (starRingEnd ℂ) (Wigner.Ra R)) + (v 2 : ℝ) * (Wigner.Ra R * (starRingEnd ℂ) (Wigner.Ra R) - Wigner.Rb R * (starRingEnd ℂ) (Wigner.Rb R)) -
      (⟨-(v 0), v 1⟩ : ℂ) * (Wigner.Ra R * (starRingEnd ℂ) (Wigner.Rb R)) := by
    rw [hx, hv1, hv2, hv3, hm, h0, hp]
    linear_combination ((⟨v 0, v 1⟩ : ℂ) * (Wigner.Rb R * (starRingEnd ℂ) (Wigner.Ra R)) - (⟨-(v 0), v 1⟩ : ℂ) * (Wigner.Ra R * (starRingEnd ℂ) (Wigner.Rb R))) * e1' +
      (Wigner.Ra R * (starRingEnd ℂ) (Wigner.Ra R) - Wigner.Rb R * (starRingEnd ℂ) (Wigner.Rb R)) * e2'
  rw [hsum, Fin.sum_univ_three]
  have hd : dir R = ![2 * (R.imI * R.imK + R.re * R.imJ), 2 * (R.imJ * R.imK - R.re * R.imI), R.re * R.re - R.imI * R.imI - R.imJ * R.imJ + R.imK * R.imK] := by
    unfold dir rotateVec
    obtain ⟨Z, hZ, z0, z1, z2, z3⟩ : ∃ Z : Quaternion ℝ, vecQuat ![0, 0, 1] = Z ∧ Z.re = 0 ∧ Z.imI = 0 ∧ Z.imJ = 0 ∧ Z.imK = 1 := ⟨_, rfl, rfl, rfl, rfl, rfl⟩
    rw [hZ]
    ext i
    fin_cases i <;> simp [z0, z1, z2, z3] <;> ring
  rw [hd]
  apply Complex.ext
  · simp [Wigner.Ra, Wigner.Rb]
    ring
  · simp [Wigner.Ra, Wigner.Rb]
    ring

/-- The rotor of a point of the boosted grid. -/
noncomputable def boosted (beta : ℝ) (v : Fin 3 → ℝ) (Rf n : Quaternion ℝ) : Quaternion ℝ := Bprm beta (fun i => v i / beta) (rotateVec (Rf * n) zhat) * (Rf * n)

/-- Aberration: the direction of a point of the boosted grid. -/
theorem boosted_dir (beta : ℝ) (v : Fin 3 → ℝ) (Rf : Quaternion ℝ) (hb0 : 0 ≤ beta) (hb1 : beta < 1) (hv2 : ∑ i, v i ^ 2 = beta ^ 2) (hR : Quaternion.normSq Rf = 1) (n : Quaternion ℝ)
    (hn : Verif.GridMultiply.Spec.Unit n) : ∑ i, dir (boosted beta v Rf n) i ^ 2 = 1 ∧
      ∑ i, v i * dir (boosted beta v Rf n) i = (∑ i, v i * dir (Rf * n) i + beta ^ 2) / (1 + ∑ i, v i * dir (Rf * n) i) ∧ (beta = 0 → boosted beta v Rf n = Rf * n) := by
  have hu : ∑ i, rotateVec (Rf * n) zhat i ^ 2 = 1 := by
    rw [rotateVec_length _ (by rw [map_mul, hR, unit_normSq hn, one_mul]), zhat_length]
  have hd : dir (boosted beta v Rf n) = rotateVec (Bprm beta (fun i => v i / beta) (rotateVec (Rf * n) zhat)) (rotateVec (Rf * n) zhat) :=
    Props.AbdTransform.rotateVec_mul _ _ _
  have hd' : dir (Rf * n) = rotateVec (Rf * n) zhat := rfl
  rcases hb0.eq_or_lt with h0 | h0
  · have hB : boosted beta v Rf n = Rf * n := by
      show Bprm beta _ _ * _ = _
      rw [Bprm, if_neg (by rw [← h0]; exact lt_irrefl _), one_mul]
    have hvz : ∀ i, v i = 0 := by
      intro i
      rw [← h0, zero_pow two_ne_zero] at hv2
      have := (Finset.sum_eq_zero_iff_of_nonneg (fun i _ => sq_nonneg (v i))).mp hv2 i (Finset.mem_univ i)
      exact pow_eq_zero_iff two_ne_zero |>.mp this
    refine ⟨by rw [hB, hd', hu], ?_, fun _ => hB⟩
    simp [hvz, ← h0]
  · have hvh : ∑ i, (v i / beta) ^ 2 = 1 := by
      simp only [div_pow]
      rw [← Finset.sum_div, hv2, div_self (by positivity)]
    obtain ⟨a1, a2⟩ := Props.AbdTransform.aberration beta hb0 hb1 (fun i => v i / beta) _ hvh hu
    rw [← hd] at a1 a2
    rw [← hd'] at a2
    refine ⟨a1, ?_, fun e => absurd e h0.ne'⟩
    have e1 : ∀ x : Fin 3 → ℝ, ∑ i, v i / beta * x i = (∑ i, v i * x i) / beta := by
      intro x
      rw [Finset.sum_div]
      exact Finset.sum_congr rfl fun i _ => by ring
    rw [e1, e1] at a2
    have hpos : 0 < 1 + ∑ i, v i * dir (Rf * n) i := by
      have := Props.AbdTransform.dot_le v (dir (Rf * n)) (by rw [hd', hu]) beta hb0 hv2
      linarith [(abs_le.mp this).1]
    generalize ∑ i, v i * dir (Rf * n) i = y at *
    generalize ∑ i, v i * dir (boosted beta v Rf n) i = z at *
    have e2 : beta * (y / beta) = y := by field_simp
    rw [e2] at a2
    field_simp at a2 ⊢
    linarith

theorem from_modes_core {spline : List (ℝ × ℝ) → ℝ → ℝ} (hs : Spec.Interpolates spline) (other : Int → Option WModes) (w : WModes) (s c : Int) (hw : Good w s)
    (hc : Weights.conformalWeight w.dataType w.rOut = .ok c)
    (kw : Kw) (r : GridResult) (hr : gridProcess w.ellMax kw = .ok r) (v : Fin 3 → ℝ) (hv : v = vec3 r.boost_velocity) (beta g : ℝ) (hbeta : beta = √(∑ i, v i ^ 2)) (hg : g = 1 / √(1 - beta ^ 2))
    (ys : Quaternion ℝ → List ℂ) (hlen : ∀ R, (ys R).length = w.t.length) (hys : ∀ R ∈ rotors r, 0 < (direction r g R).k → column other r g w s c R = .ok (ys R)) :
    ∃ G, fromModes spline other w kw = .ok G ∧ G.dataType = w.dataType ∧ G.inertial = true ∧ G.rOut = w.rOut ∧ G.mOut = w.mOut ∧ G.nTheta = r.n_theta.toNat ∧ G.nPhi = r.n_phi.toNat ∧ G.frame = [] ∧
      beta < 1 ∧ G.t.Sublist (w.t.map fun u => (u - (constantFrom (r.supertranslation 0)).re) / g) ∧ G.data.length = G.t.length ∧
      ∀ (j : Nat) (n : Quaternion ℝ), (rect G.nTheta G.nPhi)[j]? = some n → ∃ (R : Quaternion ℝ) (k alpha : ℝ),
        ∑ i, dir R i ^ 2 = 1 ∧
        ∑ i, v i * dir R i = (∑ i, v i * dir (r.frame_rotation * n) i + beta ^ 2) / (1 + ∑ i, v i * dir (r.frame_rotation * n) i) ∧
        (beta = 0 → R = r.frame_rotation * n) ∧
        k = 1 / (g * (1 - ∑ i, v i * dir R i)) ∧ 0 < k ∧ alpha = (expansion 0 r.ellMaxSuper (superModes r.supertranslation) R).re ∧
        ∀ (i : Nat) (u : ℝ), G.t[i]? = some u → ∃ values x, G.data[i]? = some values ∧ values[j]? = some x ∧
          x = sampled spline (w.t.map fun u => k * (u - alpha)) (ys R) u ∧
          ∀ (l : Nat) (hl : l < w.t.length), u = k * (w.t[l] - alpha) → ∃ y, (ys R)[l]? = some y ∧ x = y := by
  obtain ⟨row, q1, q2, q3, q4, q5, q6, q7⟩ := gridProcess_ok hr
  have hls := gridSuperInput_nonneg q1
  have hvabs : vabs v = beta := by rw [hbeta, vabs, Fin.sum_univ_three]
  have hb1 : beta < 1 := by
    rw [← hvabs, hv]
    exact velocity_vabs q6
  have hb0 : 0 ≤ beta := by rw [hbeta]; exact Real.sqrt_nonneg _
  have hgg : g = gamma (vabs (vec3 r.boost_velocity)) := by rw [← hv, hvabs, hg]; rfl
  have hg0 : 0 < g := by
    rw [hg]
    exact one_div_pos.mpr (Real.sqrt_pos.mpr (by nlinarith))
  have hR := rotor_unit q5
  have hv2 : ∑ i, v i ^ 2 = beta ^ 2 := by rw [← hvabs, vabs_sq]
  -- the rotors
  let B : Quaternion ℝ → Quaternion ℝ := boosted beta v r.frame_rotation
  have hrot : rotors r = (rect r.n_theta.toNat r.n_phi.toNat).map B := by
    unfold rotors
    simp only [← hv, hvabs]
    rfl
  have hdir : ∀ n, Verif.GridMultiply.Spec.Unit n → ∑ i, dir (B n) i ^ 2 = 1 ∧
      ∑ i, v i * dir (B n) i = (∑ i, v i * dir (r.frame_rotation * n) i + beta ^ 2) / (1 + ∑ i, v i * dir (r.frame_rotation * n) i) ∧ (beta = 0 → B n = r.frame_rotation * n) :=
    boosted_dir beta v r.frame_rotation hb0 hb1 hv2 hR
  -- the Doppler factors
  have hk : ∀ n, Verif.GridMultiply.Spec.Unit n → 0 < (direction r g (B n)).k := by
    intro n hn
    have := Props.AbdTransform.dot_le v (dir (B n)) (hdir n hn).1 beta hb0 hv2
    have hk : (direction r g (B n)).k = 1 / (g * (1 - ∑ i, v i * dir (B n) i)) := by
      simp only [direction, ← hv]
      rfl
    rw [hk]
    refine one_div_pos.mpr (mul_pos hg0 ?_)
    linarith [(abs_le.mp this).2]
  have hkr : ∀ R ∈ rotors r, 0 < (direction r g R).k := by
    intro R h
    rw [hrot] at h
    obtain ⟨n, hn, rfl⟩ := List.mem_map.mp h
    exact hk n (Verif.GridMultiply.rect_unit _ _ n hn)
  have hne : w.t ≠ [] := by
    intro e
    have := hw.times
    rw [e] at this
    simp at this
  have hn1 : 1 ≤ r.n_theta := by
    unfold gridPoints at q3
    simp only at q3
    split at q3
    · cases q3
    · have := hw.ellMin
      have := hw.order
      have := Except.ok.inj q3
      omega
  have hn2 : 1 ≤ r.n_phi := by
    unfold gridPoints at q4
    simp only at q4
    split at q4
    · cases q4
    · have := hw.ellMin
      have := hw.order
      have := Except.ok.inj q4
      omega
  obtain ⟨ts, t1, t2, -⟩ := Props.AbdTransform.gridSlices_spec g (constantFrom (r.supertranslation 0)).re w.t hne ((rotors r).map (direction r g))
    (by rw [hrot]; simpa using rect_ne_nil (by omega) (by omega)) (by
      intro d hd
      obtain ⟨R, hR, rfl⟩ := List.mem_map.mp hd
      exact hkr R hR)
  have hev := evaluate_ok spline other w r s c hw.spin hc hw.times hw.increasing g hgg _ (fun R h => hys R h (hkr R h)) ts t1 hkr
  refine ⟨_, by
    unfold fromModes
    rw [if_pos hw.inertial, hr, ok_bind]
    exact hev, rfl, hw.inertial, rfl, rfl, rfl, rfl, rfl, hb1, t2, by simp, ?_⟩
  intro j n hj
  have hnu := Verif.GridMultiply.rect_unit _ _ n (List.mem_of_getElem? hj)
  obtain ⟨d1, d2, d3⟩ := hdir n hnu
  have hkk : (direction r g (B n)).k = 1 / (g * (1 - ∑ i, v i * dir (B n) i)) := by
    simp only [direction, ← hv]
    rfl
  have haa : (direction r g (B n)).alpha = (expansion 0 r.ellMaxSuper (superModes r.supertranslation) (B n)).re := by
    simp only [direction]
    rw [dot_eq]
    rfl
  refine ⟨B n, (direction r g (B n)).k, (direction r g (B n)).alpha, d1, d2, d3, hkk, hk n hnu, haa, ?_⟩
  intro i u hi
  simp only at hi hj
  refine ⟨_, _, by rw [List.getElem?_map, hi]; rfl, by beta_reduce; rw [hrot, List.getElem?_map, List.getElem?_map, hj]; rfl, rfl, ?_⟩
  intro l hl hu
  have hl2 : l < (ys (B n)).length := by rw [hlen]; exact hl
  have := sampled_node hs (w.t.map fun u => (direction r g (B n)).k * (u - (direction r g (B n)).alpha)) (ys (B n)) (by
      rw [List.pairwise_map]
      exact hw.increasing.imp fun {a b} h => mul_lt_mul_of_pos_left (by linarith) (hk n hnu)) (by simp [hlen]) l (by simpa using hl)
  rw [List.getElem_map, ← hu] at this
  exact ⟨_, List.getElem?_eq_getElem hl2, this⟩

/-- **C60** for boosts and supertranslations, all types but `psi0` to `psi3`.  The transformation is accepted and gives, at every point of the grid with the rotor `n`, the values in the direction of a rotor
`R`, which is related to the direction of the point by the aberration formula; in this direction the times are `k (u - α)` with the Doppler factor `k`, and the field is `k^c` times the original one, with the
contribution of the supertranslation, interpolated in time.  The new times are as in C32. -/
theorem from_modes_general {spline : List (ℝ × ℝ) → ℝ → ℝ} (hs : Spec.Interpolates spline) (other : Int → Option WModes) (w : WModes) (s c : Int) (hw : Good w s)
    (hdt : w.dataType ∈ [Weights.psi4, Weights.sigma, Weights.h, Weights.hdot, Weights.news]) (hc : Weights.conformalWeight w.dataType w.rOut = .ok c)
    (kw : Kw) (r : GridResult) (hr : gridProcess w.ellMax kw = .ok r) (v : Fin 3 → ℝ) (hv : v = vec3 r.boost_velocity) (beta g : ℝ) (hbeta : beta = √(∑ i, v i ^ 2)) (hg : g = 1 / √(1 - beta ^ 2)) :
    ∃ G, fromModes spline other w kw = .ok G ∧ G.dataType = w.dataType ∧ G.inertial = true ∧ G.rOut = w.rOut ∧ G.mOut = w.mOut ∧ G.nTheta = r.n_theta.toNat ∧ G.nPhi = r.n_phi.toNat ∧ G.frame = [] ∧
      beta < 1 ∧ G.t.Sublist (w.t.map fun u => (u - (constantFrom (r.supertranslation 0)).re) / g) ∧ G.data.length = G.t.length ∧
      ∀ (j : Nat) (n : Quaternion ℝ), (rect G.nTheta G.nPhi)[j]? = some n → ∃ (R : Quaternion ℝ) (k alpha : ℝ),
        ∑ i, dir R i ^ 2 = 1 ∧
        ∑ i, v i * dir R i = (∑ i, v i * dir (r.frame_rotation * n) i + beta ^ 2) / (1 + ∑ i, v i * dir (r.frame_rotation * n) i) ∧
        (beta = 0 → R = r.frame_rotation * n) ∧
        k = 1 / (g * (1 - ∑ i, v i * dir R i)) ∧ 0 < k ∧ alpha = (expansion 0 r.ellMaxSuper (superModes r.supertranslation) R).re ∧
        ∀ (i : Nat) (u : ℝ), G.t[i]? = some u → ∃ values x, G.data[i]? = some values ∧ values[j]? = some x ∧
          x = sampled spline (w.t.map fun u => k * (u - alpha)) (w.data.map fun row => (expansion s w.ellMax (rowModes w row) R + shift w.dataType r.ellMaxSuper (superModes r.supertranslation) R) * (k : ℂ) ^ c) u ∧
          ∀ (l : Nat) (hl : l < w.data.length) (hl' : l < w.t.length), u = k * (w.t[l] - alpha) →
            x = (expansion s w.ellMax (rowModes w w.data[l]) R + shift w.dataType r.ellMaxSuper (superModes r.supertranslation) R) * (k : ℂ) ^ c := by
  refine (from_modes_core hs other w s c hw hc kw r hr v hv beta g hbeta hg (fun R => w.data.map fun row => (expansion s w.ellMax (rowModes w row) R +
    shift w.dataType r.ellMaxSuper (superModes r.supertranslation) R) * ((direction r g R).k : ℂ) ^ c) (by simp [hw.rows]) ?_).imp ?_
  · obtain ⟨row, q1, q2, q3, q4, q5, q6, q7⟩ := gridProcess_ok hr
    have hls := gridSuperInput_nonneg q1
    intro R _ _
    unfold column
    rw [Props.Compare.mapM_ok _ (fun p => (expansion s w.ellMax (rowModes w p.1.2) R + shift w.dataType r.ellMaxSuper (superModes r.supertranslation) R) * ((direction r g R).k : ℂ) ^ c)]
    · congr 1
      refine List.ext_getElem (by simp [hw.rows]) fun i h1 h2 => ?_
      simp
    · intro p _
      unfold gridValue
      rw [gridMixed_shift r g w.dataType hdt, ok_bind, pure_eq_ok, field_eq w s _ _ _ hw.ellMin hw.order (by omega)]
  · rintro G ⟨h1, h2, h3, h4, h5, h6, h7, h8, h9, h10, h11, h12⟩
    refine ⟨h1, h2, h3, h4, h5, h6, h7, h8, h9, h10, h11, fun j n hj => ?_⟩
    obtain ⟨R, k, alpha, a1, a2, a3, a4, a5, a6, a7⟩ := h12 j n hj
    have hk : (direction r g R).k = k := by
      rw [a4, hv]
      rfl
    refine ⟨R, k, alpha, a1, a2, a3, a4, a5, a6, fun i u hi => ?_⟩
    obtain ⟨values, x, b1, b2, b3, b4⟩ := a7 i u hi
    rw [hk] at b3
    refine ⟨values, x, b1, b2, b3, fun l hl hl' hu => ?_⟩
    obtain ⟨y, c1, c2⟩ := b4 l hl' hu
    rw [List.getElem?_map, List.getElem?_eq_getElem hl, Option.map_some, hk] at c1
    rw [c2, ← Option.some.inj c1]

theorem ethVr_modes (v : Fin 3 → ℝ) (V : Int → Int → ℂ) (hV : ∀ R, Verif.GridMultiply.Spec.Unit R → expansion 0 1 V R = ((∑ i, v i * dir R i : ℝ) : ℂ)) (R : Quaternion ℝ) :
    expansion 1 1 (vDotR v) R = expansion 1 1 (Charges.ethGHP 0 V) R := by
  have hu : ∀ ell m : Int, 0 ≤ ell → ell ≤ 1 → -ell ≤ m → m ≤ ell → V ell m = vDotR v ell m := fun ell m h1 h2 h3 h4 =>
    Props.GridMultiply.modes_unique 0 1 _ _ (fun R hR => by rw [hV R hR, vDotR_value]) ell m (by simpa using h1) h2 h3 h4
  unfold expansion
  refine Finset.sum_congr rfl fun ell h1 => Finset.sum_congr rfl fun m h2 => ?_
  rw [Finset.mem_Icc] at h1 h2
  unfold Charges.ethGHP
  rw [hu ell m h1.1 h1.2 h2.1 h2.2]
  rcases h1.1.eq_or_lt with h | h
  · subst h
    have : Y 1 0 m R = 0 := if_neg (by norm_num)
    rw [this]
    simp
  · have : ell = 1 := by omega
    subst this
    rw [show ((√(((1 - 0) * (1 + 0 + 1) : Int) / 2) : ℝ) : ℂ) = 1 by norm_num, one_mul]

theorem expansion_div (s L : Int) (c : Int → Int → ℂ) (R : Quaternion ℝ) : expansion s L (fun ell m => (1 / √2 : ℝ) * c ell m) R = expansion s L c R / (√2 : ℝ) := by
  unfold expansion
  rw [Finset.sum_div]
  refine Finset.sum_congr rfl fun ell _ => ?_
  rw [Finset.sum_div]
  refine Finset.sum_congr rfl fun m _ => ?_
  push_cast
  ring

theorem gridE_weyl (r : GridResult) (g : ℝ) (R : Quaternion ℝ) (u : ℝ) (V : Int → Int → ℂ)
    (hV : ∀ R, Verif.GridMultiply.Spec.Unit R → expansion 0 1 V R = ((∑ i, vec3 r.boost_velocity i * dir R i : ℝ) : ℂ)) :
    gridE g (direction r g R) u = weylE g (direction r g R).k u (direction r g R).alpha V r.ellMaxSuper (superModes r.supertranslation) R := by
  have h1 : (direction r g R).ethVr = expansion 1 1 (Charges.ethGHP 0 V) R / (√2 : ℝ) := by
    simp only [direction]
    rw [dot_eq, expansion_div, ethVr_modes _ V hV R]
  have h2 : (direction r g R).ethAlpha = expansion 1 r.ellMaxSuper (Charges.ethGHP 0 (superModes r.supertranslation)) R / (√2 : ℝ) := by
    simp only [direction]
    rw [dot_eq, expansion_div]
    rfl
  unfold gridE weylE ethTime
  rw [h1, h2]
  push_cast
  ring

theorem gridE_trivial {r : GridResult} (h : isTrivial r = true) (g : ℝ) (R : Quaternion ℝ) (u : ℝ) : gridE g (direction r g R) u = 0 := by
  have hb := (of_decide_eq_true h).1
  have h := (of_decide_eq_true h).2
  have hv : ∀ i, vec3 r.boost_velocity i = 0 := by
    intro i
    have h2 := vabs_sq (vec3 r.boost_velocity)
    rw [hb, zero_pow two_ne_zero] at h2
    have := (Finset.sum_eq_zero_iff_of_nonneg (fun i _ => sq_nonneg (vec3 r.boost_velocity i))).mp h2.symm i (Finset.mem_univ i)
    exact pow_eq_zero_iff two_ne_zero |>.mp this
  have h1 : (direction r g R).ethVr = 0 := by
    simp only [direction]
    rw [dot_eq]
    refine Finset.sum_eq_zero fun ell _ => Finset.sum_eq_zero fun m _ => ?_
    have : vDotR (vec3 r.boost_velocity) ell m = 0 := by
      have hz : (⟨0, 0⟩ : ℂ) = 0 := rfl
      simp [vDotR, vectorAs, hv, hz]
    simp only [this, mul_zero, zero_mul]
  have h2 : (direction r g R).ethAlpha = 0 := by
    simp only [direction]
    rw [dot_eq]
    refine Finset.sum_eq_zero fun ell h1 => Finset.sum_eq_zero fun m h2 => ?_
    rw [Finset.mem_Icc] at h1 h2
    by_cases h0 : ell = 0
    · subst h0
      simp [Charges.ethGHP]
    · have : r.supertranslation (lmIndex ell m 0) = 0 := by
        refine h _ (mem_pyRange.mpr ?_)
        have hb := lmIndex_block 0 ⟨h2.1, h2.2⟩
        have h6 : 1 ≤ ell := by omega
        constructor <;> nlinarith
      simp [Charges.ethGHP, this]
  unfold gridE
  rw [h1, h2]
  ring

/-- **C60** for boosts and supertranslations and the Weyl components `psi0` to `psi3`; those of higher index are given with the keywords `psi4_modes`, ... -/
theorem from_modes_weyl {spline : List (ℝ × ℝ) → ℝ → ℝ} (hs : Spec.Interpolates spline) (other : Int → Option WModes) (n : Nat) (hn : n ≤ 3) (W : Nat → WModes) (c : Int) (hw : Good (W n) (2 - n))
    (hW : ∀ m : Nat, n ≤ m → m ≤ 4 → (W m).dataType = m + 1 ∧ 0 ≤ (W m).ellMin ∧ (W m).ellMin ≤ (W m).ellMax ∧ (W m).data.length = (W n).data.length)
    (hother : ∀ m : Nat, n < m → m ≤ 4 → other (m + 1) = some (W m)) (hc : Weights.conformalWeight (W n).dataType (W n).rOut = .ok c)
    (kw : Kw) (r : GridResult) (hr : gridProcess (W n).ellMax kw = .ok r) (v : Fin 3 → ℝ) (hv : v = vec3 r.boost_velocity) (beta g : ℝ) (hbeta : beta = √(∑ i, v i ^ 2)) (hg : g = 1 / √(1 - beta ^ 2))
    (V : Int → Int → ℂ) (hV : ∀ R, Verif.GridMultiply.Spec.Unit R → expansion 0 1 V R = ((∑ i, v i * dir R i : ℝ) : ℂ)) :
    ∃ G, fromModes spline other (W n) kw = .ok G ∧ G.dataType = (W n).dataType ∧ G.inertial = true ∧ G.rOut = (W n).rOut ∧ G.mOut = (W n).mOut ∧ G.nTheta = r.n_theta.toNat ∧ G.nPhi = r.n_phi.toNat ∧ G.frame = [] ∧
      beta < 1 ∧ G.t.Sublist ((W n).t.map fun u => (u - (constantFrom (r.supertranslation 0)).re) / g) ∧ G.data.length = G.t.length ∧
      ∀ (j : Nat) (q : Quaternion ℝ), (rect G.nTheta G.nPhi)[j]? = some q → ∃ (R : Quaternion ℝ) (k alpha : ℝ),
        ∑ i, dir R i ^ 2 = 1 ∧
        ∑ i, v i * dir R i = (∑ i, v i * dir (r.frame_rotation * q) i + beta ^ 2) / (1 + ∑ i, v i * dir (r.frame_rotation * q) i) ∧
        (beta = 0 → R = r.frame_rotation * q) ∧
        k = 1 / (g * (1 - ∑ i, v i * dir R i)) ∧ 0 < k ∧ alpha = (expansion 0 r.ellMaxSuper (superModes r.supertranslation) R).re ∧
        ∀ (i : Nat) (u : ℝ), G.t[i]? = some u → ∃ values x, G.data[i]? = some values ∧ values[j]? = some x ∧
          x = sampled spline ((W n).t.map fun u => k * (u - alpha)) ((W n).t.zipIdx.map fun p => weylSum W n p.2 (weylE g k p.1 alpha V r.ellMaxSuper (superModes r.supertranslation) R) R * (k : ℂ) ^ c) u ∧
          ∀ (l : Nat) (hl : l < (W n).t.length), u = k * ((W n).t[l] - alpha) →
            x = weylSum W n l (weylE g k (W n).t[l] alpha V r.ellMaxSuper (superModes r.supertranslation) R) R * (k : ℂ) ^ c := by
  refine (from_modes_core hs other (W n) (2 - n) c hw hc kw r hr v hv beta g hbeta hg (fun R => (W n).t.zipIdx.map fun p =>
    weylSum W n p.2 (weylE g (direction r g R).k p.1 (direction r g R).alpha V r.ellMaxSuper (superModes r.supertranslation) R) R * ((direction r g R).k : ℂ) ^ c) (by simp) ?_).imp ?_
  · obtain ⟨row, q1, q2, q3, q4, q5, q6, q7⟩ := gridProcess_ok hr
    have hls := gridSuperInput_nonneg q1
    intro R _ _
    unfold column
    rw [Props.Compare.mapM_ok _ (fun p => weylSum W n p.2 (weylE g (direction r g R).k p.1.1 (direction r g R).alpha V r.ellMaxSuper (superModes r.supertranslation) R) R * ((direction r g R).k : ℂ) ^ c)]
    · congr 1
      refine List.ext_getElem (by simp [hw.rows]) fun i h1 h2 => ?_
      simp
    · intro p hp
      obtain ⟨hp1, hp2⟩ := List.mem_zipIdx' hp
      have hlt : p.2 < (W n).data.length := by
        rw [List.length_zip] at hp1
        omega
      have hrow : p.1.2 = (W n).data[p.2] := by
        rw [hp2]
        simp
      rw [← gridE_weyl r g R p.1.1 V (by rw [← hv]; exact hV)]
      let F : Nat → ℂ := fun m => expansion (2 - m) (W m).ellMax (rowModes (W m) ((W m).data.getD p.2 fun _ => 0)) R
      have hfield : field (W n) (2 - n) r.ell_max p.1.2 R = F n := by
        rw [field_eq (W n) _ _ _ R hw.ellMin hw.order (by omega), hrow]
        show _ = expansion _ _ (rowModes _ ((W n).data.getD p.2 _)) R
        rw [List.getD_eq_getElem _ _ hlt]
      have hsum : ∀ e, weylSum W n p.2 e R = ∑ j ∈ Finset.range (5 - n), (Nat.choose (4 - n) j : ℂ) * e ^ j * F (n + j) := fun e => rfl
      rw [hfield, (hW n le_rfl (by omega)).1, hsum]
      cases ht : isTrivial r with
      | false =>
        refine Props.AbdTransform.gridValue_psi g _ c p.1.1 F _ n hn ?_
        intro m h1 h2
        obtain ⟨a1, a2, a3, a4⟩ := hW m h1.le h2
        have hl : p.2 < (W m).data.length := by omega
        have hsw : Weights.spinWeight (W m).dataType = .ok (2 - m) := by
          rw [a1]
          interval_cases m <;> rfl
        unfold otherField
        rw [hother m h1 h2]
        simp only [hsw, List.getElem?_eq_getElem hl, if_pos a4]
        rw [field_eq (W m) _ _ _ R a2 a3 le_rfl]
        show _ = some (expansion _ _ (rowModes _ ((W m).data.getD p.2 _)) R)
        rw [List.getD_eq_getElem _ _ hl]
      | true =>
        rw [gridE_trivial ht]
        unfold gridValue gridMixed
        rw [if_pos rfl, ok_bind, pure_eq_ok, Finset.sum_eq_single 0]
        · simp
        · intro j _ hj
          rw [zero_pow hj]
          ring
        · intro h
          exact absurd (Finset.mem_range.mpr (by omega)) h
  · rintro G ⟨h1, h2, h3, h4, h5, h6, h7, h8, h9, h10, h11, h12⟩
    refine ⟨h1, h2, h3, h4, h5, h6, h7, h8, h9, h10, h11, fun j n hj => ?_⟩
    obtain ⟨R, k, alpha, a1, a2, a3, a4, a5, a6, a7⟩ := h12 j n hj
    have hk : (direction r g R).k = k := by
      rw [a4, hv]
      rfl
    have ha : (direction r g R).alpha = alpha := by
      rw [a6]
      simp only [direction]
      rw [dot_eq]
      rfl
    refine ⟨R, k, alpha, a1, a2, a3, a4, a5, a6, fun i u hi => ?_⟩
    obtain ⟨values, x, b1, b2, b3, b4⟩ := a7 i u hi
    rw [hk, ha] at b3
    refine ⟨values, x, b1, b2, b3, fun l hl hu => ?_⟩
    obtain ⟨y, c1, c2⟩ := b4 l hl hu
    rw [List.getElem?_map, List.getElem?_eq_getElem (by simpa using hl), Option.map_some, hk, ha] at c1
    rw [c2, ← Option.some.inj c1]
    simp

/-- A boost by half the speed of light with a rotation is accepted. -/
example : ∃ r, gridProcess sample.ellMax { boost_velocity := some [1/2, 0, 0], frame_rotation := some [0, 1, 0, 0] } = .ok r ∧ r.boost_velocity = [1/2, 0, 0] ∧ r.frame_rotation = (⟨0, 1, 0, 0⟩ : Quaternion ℝ) := by
  have hr := rotation_ok (kw := { boost_velocity := some [1/2, 0, 0], frame_rotation := some [0, 1, 0, 0] }) (R := (⟨0, 1, 0, 0⟩ : Quaternion ℝ)) (by
    have hn : Quaternion.normSq (⟨0, 1, 0, 0⟩ : Quaternion ℝ) = 1 := (Quaternion.normSq_def' _).trans (by norm_num)
    refine Or.inr ⟨(⟨0, 1, 0, 0⟩ : Quaternion ℝ), rfl, ?_, ?_⟩
    · rw [hn]
      norm_num
    · rw [hn, Real.sqrt_one, inv_one]
      exact (one_smul ℝ _).symm)
  have hv : velocity { boost_velocity := some [1/2, 0, 0], frame_rotation := some [0, 1, 0, 0] } = .ok [1/2, 0, 0] := by
    unfold velocity
    refine if_neg ?_
    rw [not_or, not_le]
    refine ⟨by simp, ?_⟩
    rw [Real.sqrt_lt' one_pos]
    norm_num
  refine ⟨⟨fun _ => 0, 1, sample.ellMax + 1, 2 * (sample.ellMax + 1) + 1, 2 * (sample.ellMax + 1) + 1, ⟨0, 1, 0, 0⟩, [1/2, 0, 0]⟩, ?_, rfl, rfl⟩
  unfold gridProcess
  simp only [hr, hv]
  rfl

end Verif.Props.GridModes
