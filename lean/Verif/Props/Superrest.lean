import Verif.Lemmas.Superrest
import Verif.Props.Ladder
import Verif.Props.Bms
import Verif.Lemmas.ComMotion
import Mathlib.Tactic.NormNum
import Mathlib.Tactic.FinCases

/-!
# C39, C49, C50: conversions, the operator of the superrest frame, transformations from charges
-/

namespace Verif.Props.Superrest

open Verif Verif.Modes Verif.Superrest Verif.Spec.Superrest Verif.Lemmas.Superrest

/-! ## C49: the operator and its inverse -/

theorem D_get (h : Row ℂ) (ellMax ell m : Int) (hm : IsMode ell m) (hl : ell ≤ ellMax) : opD h ellMax (lmIndex ell m 0) = h (lmIndex ell m 0) * factorD ell := by
  unfold opD
  rw [loop_get' factorD h ellMax ell m hm, if_pos hl]

theorem Dinv_get (h : Row ℂ) (ellMax ell m : Int) (hm : IsMode ell m) (hl : ell ≤ ellMax) : opDinv h ellMax (lmIndex ell m 0) = h (lmIndex ell m 0) * factorDinv ell := by
  unfold opDinv
  rw [loop_get' factorDinv h ellMax ell m hm, if_pos hl]

theorem factors (ell : Int) (h : ¬ ell < 2) : factorD ell * factorDinv ell = 1 := by
  unfold factorD factorDinv
  rw [if_neg h, if_neg h]
  have h1 : (ell : ℂ) ≠ 0 := by exact_mod_cast (show ell ≠ 0 by omega)
  have h2 : (ell : ℂ) - 1 ≠ 0 := by exact_mod_cast (show ell - 1 ≠ 0 by omega)
  have h3 : (ell : ℂ) + 1 ≠ 0 := by exact_mod_cast (show ell + 1 ≠ 0 by omega)
  have h4 : (ell : ℂ) + 2 ≠ 0 := by exact_mod_cast (show ell + 2 ≠ 0 by omega)
  field_simp

/-- C49: the two operators, in either order, keep the modes with `ell >= 2` and remove the others. -/
theorem D_Dinv (h : Row ℂ) (ellMax ell m : Int) (hm : IsMode ell m) (hl : ell ≤ ellMax) :
    opD (opDinv h ellMax) ellMax (lmIndex ell m 0) = (if ell < 2 then 0 else h (lmIndex ell m 0)) ∧
    opDinv (opD h ellMax) ellMax (lmIndex ell m 0) = (if ell < 2 then 0 else h (lmIndex ell m 0)) := by
  rw [D_get _ _ _ _ hm hl, Dinv_get _ _ _ _ hm hl, Dinv_get _ _ _ _ hm hl, D_get _ _ _ _ hm hl]
  split_ifs with h2
  · simp [factorD, factorDinv, h2]
  · rw [mul_assoc, mul_assoc, mul_comm (factorDinv ell), factors ell h2]
    simp

/-- C49: what each operator does to a mode.  Both remove the modes with `ell < 2`. -/
theorem D_values (h : Row ℂ) (ellMax ell m : Int) (hm : IsMode ell m) (hl : ell ≤ ellMax) :
    opD h ellMax (lmIndex ell m 0) = (if ell < 2 then 0 else (((ell + 2) * (ell + 1) * ell * (ell - 1) : ℂ) / 4) * h (lmIndex ell m 0)) ∧
    opDinv h ellMax (lmIndex ell m 0) = (if ell < 2 then 0 else (4 / ((ell + 2) * (ell + 1) * ell * (ell - 1) : ℂ)) * h (lmIndex ell m 0)) := by
  rw [D_get _ _ _ _ hm hl, Dinv_get _ _ _ _ hm hl]
  unfold factorD factorDinv
  split_ifs
  · simp
  · exact ⟨mul_comm _ _, mul_comm _ _⟩

/-- Modes beyond the given `ell_max` stay as they are: they are not multiplied by a factor, and not removed. -/
theorem D_beyond (h : Row ℂ) (ellMax ell m : Int) (hm : IsMode ell m) (hl : ellMax < ell) :
    opD h ellMax (lmIndex ell m 0) = h (lmIndex ell m 0) ∧ opDinv h ellMax (lmIndex ell m 0) = h (lmIndex ell m 0) := by
  unfold opD opDinv
  rw [loop_get' factorD h ellMax ell m hm, loop_get' factorDinv h ellMax ell m hm, if_neg (by omega), if_neg (by omega)]
  exact ⟨rfl, rfl⟩

open Verif.Ladder Verif.Spec.Ladder in
/-- The factor of `ð̄ ð̄ ð ð` on functions of spin weight 0. -/
theorem factor_square (ell : Int) (h0 : 0 ≤ ell) : factor 0 ell [.ethbar, .ethbar, .eth, .eth] = if ell < 2 then 0 else ((ell + 2) * (ell + 1) * ell * (ell - 1) : ℝ) := by
  have e : factor 0 ell [.ethbar, .ethbar, .eth, .eth] = single 1 ell .ethbar * (single 2 ell .ethbar * (single 1 ell .eth * (single 0 ell .eth * 1))) := rfl
  rw [e]
  split_ifs with h
  · rcases (show ell = 0 ∨ ell = 1 by omega) with rfl | rfl
    · rw [Ladder.single_zero 1 0 (by decide) .ethbar]
      simp
    · rw [Ladder.single_zero 2 1 (by decide) .ethbar]
      simp
  · rw [Ladder.single_ethbar 1 ell (by rw [abs_of_pos] <;> omega), Ladder.single_ethbar 2 ell (by rw [abs_of_pos] <;> omega), Ladder.single_eth 1 ell (by rw [abs_of_pos] <;> omega),
      Ladder.single_eth 0 ell (by rw [abs_zero]; omega)]
    have hl : (2 : ℝ) ≤ ell := by exact_mod_cast (show (2 : Int) ≤ ell by omega)
    have a1 : (((ell : ℝ) + (1 : Int)) * (ell - (1 : Int) + 1)) = ((ell : ℝ) - (0 : Int)) * (ell + (0 : Int) + 1) := by
      push_cast
      ring
    have a2 : (((ell : ℝ) + (2 : Int)) * (ell - (2 : Int) + 1)) = ((ell : ℝ) - (1 : Int)) * (ell + (1 : Int) + 1) := by
      push_cast
      ring
    rw [a1, a2]
    have b1 : 0 ≤ ((ell : ℝ) - (0 : Int)) * (ell + (0 : Int) + 1) := by
      push_cast
      nlinarith
    have b2 : 0 ≤ ((ell : ℝ) - (1 : Int)) * (ell + (1 : Int) + 1) := by
      push_cast
      nlinarith
    have c1 := Real.mul_self_sqrt b1
    have c2 := Real.mul_self_sqrt b2
    generalize √(((ell : ℝ) - (0 : Int)) * (ell + (0 : Int) + 1)) = x at *
    generalize √(((ell : ℝ) - (1 : Int)) * (ell + (1 : Int) + 1)) = y at *
    have : -x * (-y * (y * (x * 1))) = (x * x) * (y * y) := by ring
    rw [this, c1, c2]
    push_cast
    ring

open Verif.Ladder Verif.Spec.Ladder in
/-- C49: the operator is `ð̄ ð̄ ð ð` in the GHP convention, as `WaveformModes.apply_eth` computes it for a function of spin weight 0. -/
theorem D_is_eth (h : Row ℂ) (ellMax : Int) : ∃ out, applyEth (.string ['-', '-', '+', '+']) 0 0 ellMax "GHP" h = .ok out ∧
    ∀ ell m, IsMode ell m → ell ≤ ellMax → out (lmIndex ell m 0) = opD h ellMax (lmIndex ell m 0) := by
  have hs : Spells ['-', '-', '+', '+'] [.ethbar, .ethbar, .eth, .eth] :=
    Spells.cons ['-'] ['-', '+', '+'] _ _ (by decide) (Spells.cons ['-'] ['+', '+'] _ _ (by decide) (Spells.cons ['+'] ['+'] _ _ (by decide) (Spells.cons ['+'] [] _ _ (by decide) Spells.nil)))
  obtain ⟨out, e, ho⟩ := Ladder.apply_eth_spec (.string ['-', '-', '+', '+']) 0 0 ellMax "GHP" h (fun ell => (1 / √2) ^ 4 * factor 0 ell [.ethbar, .ethbar, .eth, .eth])
    (fun ell => Ladder.ladder_factor_GHP _ _ 0 ell hs)
  refine ⟨out, e, fun ell m hm hl => ?_⟩
  have h0 : 0 ≤ ell := by
    have := hm.1.trans hm.2
    omega
  rw [ho ell m h0 hl (abs_le.mpr hm), D_get h ellMax ell m hm hl]
  have hp : (1 / √2) ^ 4 = (1 / 4 : ℝ) := by
    have : √2 ^ 4 = (4 : ℝ) := by
      have h2 := Real.sq_sqrt (show (0 : ℝ) ≤ 2 by norm_num)
      calc √2 ^ 4 = (√2 ^ 2) ^ 2 := by ring
        _ = 4 := by rw [h2]; norm_num
    rw [div_pow, this]
    norm_num
  show h (lmIndex ell m 0) * (((1 / √2) ^ 4 * factor 0 ell [.ethbar, .ethbar, .eth, .eth] : ℝ) : ℂ) = _
  rw [factor_square ell h0, hp]
  unfold factorD
  split_ifs
  · simp
  · push_cast
    ring

/-! ## C50: conversions -/

theorem mode_map (data : List (Row ℂ)) (f : Row ℂ → Row ℂ) (a b : Int) (i : Nat) (ell m ell' m' : Int) (c : ℂ → ℂ) (hc : c 0 = 0)
    (h : ∀ row, f row (lmIndex ell m a) = c (row (lmIndex ell' m' b))) : mode (data.map f) a i ell m = c (mode data b i ell' m') := by
  unfold mode
  rw [List.getElem?_map]
  cases data[i]? with
  | none => exact hc.symm
  | some row => exact h row

/-- `MT_to_WM` keeps the modes with `ell >= |s|`. -/
theorem to_wm_mode (f : MTS) (dt : Int) (i : Nat) (ell m : Int) : mode (mtToWm f dt).w.data |f.s| i ell m = mode f.data 0 i ell m := by
  refine mode_map f.data _ _ _ i ell m ell m id rfl fun row => ?_
  show row _ = row _
  congr 1
  unfold lmIndex
  ring

/-- `WM_to_MT` pads with zeros. -/
theorem to_mt_mode (s ellMin : Int) (h0 : 0 ≤ ellMin) (data : List (Row ℂ)) (i : Nat) (ell m : Int) (hm : IsMode ell m) :
    mode (data.map (modesNew s ellMin)) 0 i ell m = if |s| ≤ ell ∧ ellMin ≤ ell then mode data ellMin i ell m else 0 := by
  have hl : 0 ≤ ell := by
    have := hm.1.trans hm.2
    omega
  have h1 : ∀ a : Int, 0 ≤ a → (lmIndex ell m 0 < a ^ 2 ↔ ell < a) := by
    intro a ha
    obtain ⟨p, q⟩ := hm
    unfold lmIndex
    constructor
    · intro h
      by_contra hc
      nlinarith
    · intro h
      nlinarith
  have h2 : lmIndex ell m 0 < s ^ 2 ↔ ell < |s| := by
    rw [← sq_abs s]
    exact h1 _ (abs_nonneg s)
  split_ifs with h
  · refine mode_map data _ _ _ i ell m ell m id rfl fun row => ?_
    unfold modesNew
    rw [if_neg (by rw [h2, h1 _ h0]; omega)]
    show row _ = row _
    congr 1
    unfold lmIndex
    ring
  · rw [mode_map data (modesNew s ellMin) 0 ellMin i ell m ell m (fun _ => 0) rfl fun row => ?_]
    unfold modesNew
    rw [if_pos (by rw [h2, h1 _ h0]; omega)]

/-- C50: a time series whose modes below `|s|` are 0 is restored, if the data type has its spin weight. -/
theorem mt_wm_mt (f : MTS) (dt : Int) (hs : Weights.spinWeight dt = .ok f.s) (hz : LowZero f.s f.data) :
    ∃ g, wmToMt (mtToWm f dt) = .ok g ∧ g.s = f.s ∧ g.ellMax = f.ellMax ∧ g.t = f.t ∧ g.data.length = f.data.length ∧ ∀ i ell m, IsMode ell m → mode g.data 0 i ell m = mode f.data 0 i ell m := by
  refine ⟨{ s := f.s, ellMax := f.ellMax, t := f.t, data := (mtToWm f dt).w.data.map (modesNew f.s |f.s|) }, ?_, rfl, rfl, rfl, ?_, ?_⟩
  · unfold wmToMt
    rw [show (mtToWm f dt).dataType = dt from rfl, hs, ok_bind]
    rfl
  · simp [mtToWm]
  · intro i ell m hm
    rw [to_mt_mode f.s |f.s| (abs_nonneg _) _ i ell m hm, to_wm_mode]
    split_ifs with h
    · rfl
    · exact (hz i ell m hm (by omega)).symm

/-- C50: a waveform is restored up to zero modes between `|s|` and its `ell_min`. -/
theorem wm_mt_wm (h : WM) (s : Int) (hs : Weights.spinWeight h.dataType = .ok s) (h0 : 0 ≤ h.w.ellMin) :
    ∃ g, wmToMt h = .ok g ∧ (mtToWm g h.dataType).w.ellMin = |s| ∧ (mtToWm g h.dataType).w.ellMax = h.w.ellMax ∧ (mtToWm g h.dataType).t = h.t ∧ (mtToWm g h.dataType).dataType = h.dataType ∧
      ∀ i ell m, IsMode ell m → |s| ≤ ell → mode (mtToWm g h.dataType).w.data |s| i ell m = if h.w.ellMin ≤ ell then mode h.w.data h.w.ellMin i ell m else 0 := by
  refine ⟨{ s := s, ellMax := h.w.ellMax, t := h.t, data := h.w.data.map (modesNew s h.w.ellMin) }, ?_, rfl, rfl, rfl, rfl, ?_⟩
  · unfold wmToMt
    rw [hs, ok_bind]
    rfl
  · intro i ell m hm hl
    rw [to_wm_mode]
    rw [to_mt_mode s _ h0 _ i ell m hm]
    simp only [hl, true_and]

/-- The spin weights of the data types that are used. -/
theorem spin_weights : Weights.spinWeight Weights.h = .ok (-2) ∧ Weights.spinWeight Weights.psi4 = .ok (-2) ∧ Weights.spinWeight Weights.psi3 = .ok (-1) ∧ Weights.spinWeight Weights.psi2 = .ok 0 ∧
    Weights.spinWeight Weights.psi1 = .ok 1 ∧ Weights.spinWeight Weights.psi0 = .ok 2 := by
  refine ⟨rfl, rfl, rfl, rfl, rfl, rfl⟩

/-- With the default data type a function of another spin weight is not restored: the mass aspect loses its monopole. -/
theorem default_type_loses_modes (f : MTS) (hs : f.s = 0) (i : Nat) :
    ∃ g, wmToMt (mtToWm f) = .ok g ∧ g.s = -2 ∧ mode g.data 0 i 0 0 = 0 ∧ mode (mtToWm f).w.data 0 i 0 0 = mode f.data 0 i 0 0 := by
  refine ⟨{ s := -2, ellMax := f.ellMax, t := f.t, data := (mtToWm f).w.data.map (modesNew (-2) |f.s|) }, rfl, rfl, ?_, ?_⟩
  · rw [to_mt_mode (-2) |f.s| (abs_nonneg _) _ i 0 0 ⟨by omega, by omega⟩, if_neg (fun h => absurd h.1 (by decide))]
  · have := to_wm_mode f Weights.h i 0 0
    rw [hs] at this
    exact this

theorem scale_mode (c : ℂ) (f : MTS) (i : Nat) (ell m : Int) : mode (f.scale c).data 0 i ell m = c * mode f.data 0 i ell m :=
  mode_map f.data _ 0 0 i ell m ell m (fun x => c * x) (mul_zero c) fun _ => rfl

theorem bar_mode (f : MTS) (i : Nat) (ell m : Int) (hm : IsMode ell m) : mode f.bar.data 0 i ell m = (-1) ^ (f.s + m).natAbs * (starRingEnd ℂ) (mode f.data 0 i ell (-m)) :=
  mode_map f.data _ 0 0 i ell m ell (-m) (fun x => (-1) ^ (f.s + m).natAbs * (starRingEnd ℂ) x) (by simp) fun row => bar_get f.s row ell m hm

/-- C50: the strain is twice the conjugated shear: its mode `(ell, m)` comes from the mode `(ell, -m)`. -/
theorem strain_mode (a : ABD) (i : Nat) (ell m : Int) (hm : IsMode ell m) :
    a.h.w.ellMin = 2 ∧ a.h.w.ellMax = a.ellMax ∧ a.h.dataType = Weights.h ∧ mode a.h.w.data 2 i ell m = 2 * ((-1) ^ m.natAbs * (starRingEnd ℂ) (mode a.sigma 0 i ell (-m))) := by
  refine ⟨rfl, rfl, rfl, ?_⟩
  have h := to_wm_mode ((a.mts 2 a.sigma).bar.scale 2) Weights.h i ell m
  have e : |((a.mts 2 a.sigma).bar.scale 2).s| = 2 := rfl
  rw [e] at h
  unfold ABD.h
  rw [h, scale_mode, bar_mode _ _ _ _ hm]
  congr 2
  exact neg_one_pow_even _ _ ⟨1, by show (2 + m) - m = 2 * 1; ring⟩

/-! ## Rotation about the z axis -/

/-- The physical rotation about the z axis multiplies the modes by a phase. -/
theorem rotatePhysical_mode (h : WM) (h0 : 0 ≤ h.w.ellMin) (phi : ℝ) (D tmp : Row ℂ) (i : Nat) (ell m : Int) (hm : IsMode ell m) (h1 : h.w.ellMin ≤ ell) (h2 : ell ≤ h.w.ellMax) :
    mode (h.rotatePhysical (zRotor phi) D tmp).w.data h.w.ellMin i ell m = Complex.exp (m * phi * Complex.I) * mode h.w.data h.w.ellMin i ell m := by
  have hr := (Rotation.constant_rotation h.w h0 (star (zRotor phi)) D tmp).2
  have e : (h.rotatePhysical (zRotor phi) D tmp).w = (Rotation.rotate h.w (.quat (star (zRotor phi))) D tmp).1 := rfl
  rw [e]
  obtain ⟨r1, r2, r3, r4⟩ := hr
  by_cases hi : i < h.w.data.length
  · have := r4 i ell m ⟨hi, h1, h2, hm⟩
    have e1 : ∀ W : Rotation.Wave, Spec.Rotation.mode W i ell m = mode W.data W.ellMin i ell m := fun W => rfl
    rw [e1, r1, rot_z ell _ (Rb_zRotor phi) _ m hm, Ra_zRotor, phase ell m hm, e1] at this
    rw [this, mul_comm]
    congr 2
    push_cast
    ring
  · have n1 : h.w.data[i]? = none := List.getElem?_eq_none (by omega)
    have n2 : (Rotation.rotate h.w (.quat (star (zRotor phi))) D tmp).1.data[i]? = none := List.getElem?_eq_none (by rw [r3]; omega)
    unfold mode
    rw [n1, n2]
    simp

theorem rotatePsi_mode (a : ABD) (phi : ℝ) (D tmp : Row ℂ) (k : Nat) (s dt : Int) (hs : Weights.spinWeight dt = .ok s) (psi : List (Row ℂ)) (hz : LowZero s psi) :
    ∃ out, rotatePsi a (zRotor phi) D tmp k s dt psi = .ok out ∧ ∀ i ell m, IsMode ell m → ell ≤ a.ellMax → mode out 0 i ell m = Complex.exp (m * phi * Complex.I) * mode psi 0 i ell m := by
  set c1 : ℂ := ((1 / 2 * (-√2) ^ k : ℝ) : ℂ) with hc1
  set c2 : ℂ := ((2 * (-1 / √2) ^ k : ℝ) : ℂ) with hc2
  set F := (a.mts s psi).scale c1 with hF
  set W := (mtToWm F dt).rotatePhysical (zRotor phi) D tmp with hW
  have hcc : c2 * c1 = 1 := by
    rw [hc1, hc2, ← Complex.ofReal_mul, ← Complex.ofReal_one]
    congr 1
    have : (2 * (-1 / √2) ^ k) * (1 / 2 * (-√2) ^ k) = ((-1 / √2) * (-√2)) ^ k := by
      rw [mul_pow]
      ring
    rw [this]
    have h2 : √2 ≠ (0 : ℝ) := by positivity
    rw [show (-1 / √2) * (-√2) = (1 : ℝ) by field_simp, one_pow]
  have e1 : W.w.ellMin = |s| := (Rotation.constant_rotation (mtToWm F dt).w (abs_nonneg _) (star (zRotor phi)) D tmp).2.1
  have e2 : W.w.ellMax = a.ellMax := (Rotation.constant_rotation (mtToWm F dt).w (abs_nonneg _) (star (zRotor phi)) D tmp).2.2.1
  let G : MTS := { s := s, ellMax := W.w.ellMax, t := W.t, data := W.w.data.map (modesNew s W.w.ellMin) }
  refine ⟨(G.scale c2).data, ?_, ?_⟩
  · unfold rotatePsi
    show (do let f ← wmToMt W; pure (f.scale c2).data) = _
    have : wmToMt W = .ok G := by
      unfold wmToMt
      rw [show W.dataType = dt from rfl, hs, ok_bind]
      rfl
    rw [this, ok_bind]
    rfl
  · intro i ell m hm hl
    rw [scale_mode]
    show c2 * mode (W.w.data.map (modesNew s W.w.ellMin)) 0 i ell m = _
    rw [e1, to_mt_mode s |s| (abs_nonneg _) _ i ell m hm]
    split_ifs with h
    · have := rotatePhysical_mode (mtToWm F dt) (abs_nonneg _) phi D tmp i ell m hm h.1 hl
      rw [show (mtToWm F dt).w.ellMin = |s| from rfl] at this
      rw [this]
      have t := to_wm_mode F dt i ell m
      rw [show |F.s| = |s| from rfl] at t
      rw [t, scale_mode]
      show c2 * (_ * (c1 * mode psi 0 i ell m)) = _
      linear_combination (Complex.exp (m * phi * Complex.I) * mode psi 0 i ell m) * hcc
    · rw [hz i ell m hm (by omega)]
      simp

theorem rotateSigma_mode (a : ABD) (phi : ℝ) (D tmp : Row ℂ) (hz : LowZero 2 a.sigma) :
    ∃ out, rotateSigma a (zRotor phi) D tmp = .ok out ∧ ∀ i ell m, IsMode ell m → ell ≤ a.ellMax → mode out 0 i ell m = Complex.exp (m * phi * Complex.I) * mode a.sigma 0 i ell m := by
  set W := a.h.rotatePhysical (zRotor phi) D tmp with hW
  have hr := (Rotation.constant_rotation a.h.w (by show (0 : Int) ≤ 2; norm_num) (star (zRotor phi)) D tmp).2
  have e1 : W.w.ellMin = 2 := hr.1
  let G : MTS := { s := -2, ellMax := W.w.ellMax, t := W.t, data := W.w.data.map (modesNew (-2) W.w.ellMin) }
  refine ⟨(G.bar.scale (1 / 2)).data, ?_, ?_⟩
  · unfold rotateSigma
    show (do let f ← wmToMt W; pure (f.bar.scale (1 / 2)).data) = _
    have : wmToMt W = .ok G := rfl
    rw [this, ok_bind]
    rfl
  · intro i ell m hm hl
    rw [scale_mode, bar_mode _ _ _ _ hm]
    show 1 / 2 * ((-1) ^ (-2 + m).natAbs * (starRingEnd ℂ) (mode (W.w.data.map (modesNew (-2) W.w.ellMin)) 0 i ell (-m))) = _
    rw [e1, to_mt_mode (-2) 2 (by norm_num) _ i ell (-m) (isMode_neg hm)]
    have habs : |(-2 : Int)| = 2 := rfl
    rw [habs]
    split_ifs with h
    · have := rotatePhysical_mode a.h (by show (0 : Int) ≤ 2; norm_num) phi D tmp i ell (-m) (isMode_neg hm) h.1 hl
      rw [show a.h.w.ellMin = 2 from rfl] at this
      rw [this, (strain_mode a i ell (-m) (isMode_neg hm)).2.2.2, neg_neg, map_mul, map_mul, map_mul, Complex.conj_conj, map_pow, map_neg, map_one, ← Complex.exp_conj]
      have e2 : (starRingEnd ℂ) (((-m : Int) : ℂ) * phi * Complex.I) = m * phi * Complex.I := by
        rw [map_mul, map_mul, Complex.conj_I, Complex.conj_ofReal, show (((-m : Int)) : ℂ) = (((-m : Int) : ℝ) : ℂ) by push_cast; rfl, Complex.conj_ofReal]
        push_cast
        ring
      rw [e2, show (starRingEnd ℂ) 2 = (2 : ℂ) from map_ofNat _ 2]
      have e3 : (-1 : ℂ) ^ (-2 + m).natAbs * (-1) ^ (-m).natAbs = 1 := by
        rw [neg_one_pow_even (-2 + m) (-m) ⟨m - 1, by ring⟩, ← pow_add, Even.neg_one_pow ⟨_, rfl⟩]
      linear_combination (Complex.exp (m * phi * Complex.I) * mode a.sigma 0 i ell m) * e3
    · rw [hz i ell m hm (by rw [show |(2 : Int)| = 2 from rfl]; omega)]
      simp

/-- C57: `rotation(abd, phi)` multiplies the mode `(ell, m)` of every field by `exp(i m phi)`. -/
theorem rotation_phase (a : ABD) (phi : ℝ) (D tmp : Row ℂ) (hσ : LowZero 2 a.sigma) (h4 : LowZero (-2) a.psi4) (h3 : LowZero (-1) a.psi3) (h2 : LowZero 0 a.psi2) (h1 : LowZero 1 a.psi1) (h0 : LowZero 2 a.psi0) :
    ∃ b, rotation a phi D tmp = .ok b ∧ b.ellMax = a.ellMax ∧ b.t = a.t ∧ ∀ i ell m, IsMode ell m → ell ≤ a.ellMax →
      mode b.sigma 0 i ell m = Complex.exp (m * phi * Complex.I) * mode a.sigma 0 i ell m ∧ mode b.psi4 0 i ell m = Complex.exp (m * phi * Complex.I) * mode a.psi4 0 i ell m ∧
      mode b.psi3 0 i ell m = Complex.exp (m * phi * Complex.I) * mode a.psi3 0 i ell m ∧ mode b.psi2 0 i ell m = Complex.exp (m * phi * Complex.I) * mode a.psi2 0 i ell m ∧
      mode b.psi1 0 i ell m = Complex.exp (m * phi * Complex.I) * mode a.psi1 0 i ell m ∧ mode b.psi0 0 i ell m = Complex.exp (m * phi * Complex.I) * mode a.psi0 0 i ell m := by
  obtain ⟨s, es, ms⟩ := rotateSigma_mode a phi D tmp hσ
  obtain ⟨p4, e4, m4⟩ := rotatePsi_mode a phi D tmp 4 (-2) Weights.psi4 rfl a.psi4 h4
  obtain ⟨p3, e3, m3⟩ := rotatePsi_mode a phi D tmp 3 (-1) Weights.psi3 rfl a.psi3 h3
  obtain ⟨p2, e2, m2⟩ := rotatePsi_mode a phi D tmp 2 0 Weights.psi2 rfl a.psi2 h2
  obtain ⟨p1, e1, m1⟩ := rotatePsi_mode a phi D tmp 1 1 Weights.psi1 rfl a.psi1 h1
  obtain ⟨p0, e0, m0⟩ := rotatePsi_mode a phi D tmp 0 2 Weights.psi0 rfl a.psi0 h0
  refine ⟨{ a with sigma := s, psi4 := p4, psi3 := p3, psi2 := p2, psi1 := p1, psi0 := p0 }, ?_, rfl, rfl, fun i ell m hm hl => ⟨ms i ell m hm hl, m4 i ell m hm hl, m3 i ell m hm hl, m2 i ell m hm hl, m1 i ell m hm hl, m0 i ell m hm hl⟩⟩
  unfold rotation
  change (do
    let sigma ← rotateSigma a (zRotor phi) D tmp
    let psi4 ← rotatePsi a (zRotor phi) D tmp 4 (-2) Weights.psi4 a.psi4
    let psi3 ← rotatePsi a (zRotor phi) D tmp 3 (-1) Weights.psi3 a.psi3
    let psi2 ← rotatePsi a (zRotor phi) D tmp 2 0 Weights.psi2 a.psi2
    let psi1 ← rotatePsi a (zRotor phi) D tmp 1 1 Weights.psi1 a.psi1
    let psi0 ← rotatePsi a (zRotor phi) D tmp 0 2 Weights.psi0 a.psi0
    pure { a with sigma := sigma, psi4 := psi4, psi3 := psi3, psi2 := psi2, psi1 := psi1, psi0 := psi0 }) = _
  rw [es, ok_bind, e4, ok_bind, e3, ok_bind, e2, ok_bind, e1, ok_bind, e0, ok_bind]
  rfl

/-- A case that meets the hypotheses: data with a mode that is not 0. -/
example : ∃ a : ABD, LowZero 2 a.sigma ∧ LowZero (-2) a.psi4 ∧ LowZero (-1) a.psi3 ∧ LowZero 0 a.psi2 ∧ LowZero 1 a.psi1 ∧ LowZero 2 a.psi0 ∧ mode a.sigma 0 0 2 2 = 1 ∧ 2 ≤ a.ellMax := by
  have hz : ∀ s, LowZero s [] := fun s i ell m _ _ => by simp [mode]
  refine ⟨{ ellMax := 8, t := [0], sigma := [fun i => if i = 8 then 1 else 0], psi4 := [], psi3 := [], psi2 := [], psi1 := [], psi0 := [] }, ?_, hz _, hz _, hz _, hz _, hz _, ?_, ?_⟩
  · rintro i ell m ⟨h1, h2⟩ hl
    unfold mode
    rcases i with _ | i
    · simp only [List.getElem?_cons_zero]
      rw [if_neg]
      unfold lmIndex
      rw [show |(2 : Int)| = 2 from rfl] at hl
      rcases (show ell = 0 ∨ ell = 1 by omega) with rfl | rfl <;> omega
    · simp
  · simp [mode, lmIndex]
  · norm_num

/-! ## C39: rotation to the direction of the spin -/

open Verif.AbdTransform Verif.Spec.Bms Verif.Bms Verif.Lemmas.Bms

theorem normSq_vecQuat (c : Vec) : Quaternion.normSq (vecQuat c) = c 0 ^ 2 + c 1 ^ 2 + c 2 ^ 2 := by
  rw [normSq_components]
  show (0 : ℝ) ^ 2 + c 0 ^ 2 + c 1 ^ 2 + c 2 ^ 2 = _
  ring

theorem rotor_components (k : ℝ) (c : Vec) : (1 - (k • vecQuat c) * qz).re = 1 + k * c 2 ∧ (1 - (k • vecQuat c) * qz).imI = -(k * c 1) ∧ (1 - (k • vecQuat c) * qz).imJ = k * c 0 ∧ (1 - (k • vecQuat c) * qz).imK = 0 := by
  have e0 : (vecQuat c).re = 0 := rfl
  have e1 : (vecQuat c).imI = c 0 := rfl
  have e2 : (vecQuat c).imJ = c 1 := rfl
  have e3 : (vecQuat c).imK = c 2 := rfl
  have z0 : qz.re = 0 := rfl
  have z1 : qz.imI = 0 := rfl
  have z2 : qz.imJ = 0 := rfl
  have z3 : qz.imK = 1 := rfl
  have o0 : (1 : Quaternion ℝ).re = 1 := rfl
  have o1 : (1 : Quaternion ℝ).imI = 0 := rfl
  have o2 : (1 : Quaternion ℝ).imJ = 0 := rfl
  have o3 : (1 : Quaternion ℝ).imK = 0 := rfl
  refine ⟨?_, ?_, ?_, ?_⟩
  · rw [Quaternion.re_sub, o0]
    simp [e0, e1, e2, e3, z0, z1, z2, z3]
  · rw [Quaternion.imI_sub, o1]
    simp [e0, e1, e2, e3, z0, z1, z2, z3]
  · rw [Quaternion.imJ_sub, o2]
    simp [e0, e1, e2, e3, z0, z1, z2, z3]
  · rw [Quaternion.imK_sub, o3]
    simp [e0, e1, e2, e3, z0, z1, z2, z3]

/-- C39: unless the spin is 0 or points along `-z`, there is a rotor, and it turns the z axis to the direction of the spin; in the new frame the spin points along z. -/
theorem spin_rotor (chi : Vec) (h : ¬ ∃ c : ℝ, 0 ≤ c ∧ chi = ![0, 0, -c]) :
    ∃ q, spinRotor chi = some q ∧ Rotor q ∧ rotateVec q ![0, 0, 1] = (vabs chi)⁻¹ • chi ∧ rotateVec (star q) chi = ![0, 0, vabs chi] := by
  set N := chi 0 ^ 2 + chi 1 ^ 2 + chi 2 ^ 2 with hN
  have hN0 : 0 < N := by
    rcases (show 0 ≤ N by positivity).lt_or_eq with h1 | h1
    · exact h1
    · exfalso
      apply h
      have h0 : chi 0 = 0 := by nlinarith [sq_nonneg (chi 0), sq_nonneg (chi 1), sq_nonneg (chi 2)]
      have h1' : chi 1 = 0 := by nlinarith [sq_nonneg (chi 0), sq_nonneg (chi 1), sq_nonneg (chi 2)]
      have h2 : chi 2 = 0 := by nlinarith [sq_nonneg (chi 0), sq_nonneg (chi 1), sq_nonneg (chi 2)]
      refine ⟨0, le_refl _, ?_⟩
      funext i
      fin_cases i <;> simp [h0, h1', h2]
  set n := √N with hn
  have hn0 : 0 < n := Real.sqrt_pos.mpr hN0
  have hnn : n ^ 2 = N := Real.sq_sqrt hN0.le
  have hv : vabs chi = n := rfl
  have hz : n + chi 2 ≠ 0 := by
    intro h1
    apply h
    have h2 : chi 2 = -n := by linarith
    have h3 : chi 0 ^ 2 + chi 1 ^ 2 = 0 := by nlinarith
    have a0 : chi 0 = 0 := by nlinarith [sq_nonneg (chi 0), sq_nonneg (chi 1)]
    have a1 : chi 1 = 0 := by nlinarith [sq_nonneg (chi 0), sq_nonneg (chi 1)]
    refine ⟨n, hn0.le, ?_⟩
    funext i
    fin_cases i <;> simp [a0, a1, h2]
  have hzp : 0 < n + chi 2 := by
    have : -n ≤ chi 2 := by nlinarith [sq_nonneg (chi 0), sq_nonneg (chi 1)]
    rcases (show 0 ≤ n + chi 2 by linarith).lt_or_eq with h1 | h1
    · exact h1
    · exact absurd h1.symm hz
  obtain ⟨r0, r1, r2, r3⟩ := rotor_components n⁻¹ chi
  set p := 1 - (n⁻¹ • vecQuat chi) * qz with hp
  have hpn : Quaternion.normSq p = 2 * (n + chi 2) / n := by
    rw [normSq_components, r0, r1, r2, r3]
    field_simp
    nlinarith
  have hp0 : 0 < Quaternion.normSq p := by
    rw [hpn]
    positivity
  set k := (√(Quaternion.normSq p))⁻¹ with hk
  have hkk : k ^ 2 * (2 * (n + chi 2)) = n := by
    rw [hk, inv_pow, Real.sq_sqrt hp0.le, hpn]
    field_simp
  have hk0 : 0 < k := inv_pos.mpr (Real.sqrt_pos.mpr hp0)
  have c0 : (k • p).re = k * (1 + n⁻¹ * chi 2) := by rw [← r0]; rfl
  have c1 : (k • p).imI = k * -(n⁻¹ * chi 1) := by rw [← r1]; rfl
  have c2 : (k • p).imJ = k * (n⁻¹ * chi 0) := by rw [← r2]; rfl
  have c3 : (k • p).imK = k * 0 := (show (k • p).imK = k * p.imK from rfl).trans (congrArg (k * ·) r3)
  have hrot : rotateVec (k • p) ![0, 0, 1] = n⁻¹ • chi := by
    funext i
    fin_cases i
    · show rotateVec (k • p) ![0, 0, 1] 0 = n⁻¹ * chi 0
      rw [rotateVec_0, c0, c1, c2, c3]
      simp only [Matrix.cons_val_zero, Matrix.cons_val_one, Matrix.cons_val]
      field_simp
      linear_combination chi 0 * hkk
    · show rotateVec (k • p) ![0, 0, 1] 1 = n⁻¹ * chi 1
      rw [rotateVec_1, c0, c1, c2, c3]
      simp only [Matrix.cons_val_zero, Matrix.cons_val_one, Matrix.cons_val]
      field_simp
      linear_combination chi 1 * hkk
    · show rotateVec (k • p) ![0, 0, 1] 2 = n⁻¹ * chi 2
      rw [rotateVec_2, c0, c1, c2, c3]
      simp only [Matrix.cons_val_zero, Matrix.cons_val_one, Matrix.cons_val]
      field_simp
      linear_combination chi 2 * hkk + k ^ 2 * (hnn + hN)
  have hunit : Quaternion.normSq (k • p) = 1 := by
    rw [normSq_components, c0, c1, c2, c3]
    field_simp
    linear_combination n * hkk - k ^ 2 * (hnn + hN)
  refine ⟨k • p, ?_, ⟨hunit, ?_⟩, ?_, ?_⟩
  · unfold spinRotor normalized
    rw [normSq_vecQuat, if_neg (by rw [← hN]; exact hN0.ne')]
    show (if Quaternion.normSq p = 0 then none else some (k • p)) = _
    rw [if_neg hp0.ne']
  · intro hc
    have : (k • p).re = -1 := by rw [hc]; rfl
    rw [c0] at this
    have h1 : 0 < k * (1 + n⁻¹ * chi 2) := by
      have : 1 + n⁻¹ * chi 2 = (n + chi 2) / n := by field_simp
      rw [this]
      positivity
    linarith
  · rw [hv, hrot]
  · rw [hv]
    have hchi : chi = rotateVec (k • p) ![0, 0, n] := by
      have e : (![0, 0, n] : Vec) = n • ![0, 0, 1] := by
        funext i
        fin_cases i <;> simp
      rw [e, rotateVec_smul, hrot, smul_smul, mul_inv_cancel₀ hn0.ne', one_smul]
    rw [hchi]
    have := rot_star_rot (k • p) hunit (0, ![0, 0, n])
    exact congrArg Prod.snd this

/-- In the other cases the rotor is nan. -/
theorem spin_rotor_nan (c : ℝ) (hc : 0 ≤ c) : spinRotor ![0, 0, -c] = none := by
  rcases hc.eq_or_lt with rfl | h
  · have e : normalized (vecQuat ![0, 0, -0]) = none := if_pos (by rw [normSq_vecQuat]; simp)
    unfold spinRotor
    rw [e]
    rfl
  · have h1 : Quaternion.normSq (vecQuat ![0, 0, -c]) = c ^ 2 := by
      rw [normSq_vecQuat]
      simp only [Matrix.cons_val_zero, Matrix.cons_val_one, Matrix.cons_val]
      ring
    have e : normalized (vecQuat ![0, 0, -c]) = some (c⁻¹ • vecQuat ![0, 0, -c]) := by
      unfold normalized
      rw [if_neg (by rw [h1]; positivity), h1, Real.sqrt_sq h.le]
    unfold spinRotor
    rw [e]
    show normalized (1 - (c⁻¹ • vecQuat ![0, 0, -c]) * qz) = none
    refine if_pos ?_
    obtain ⟨r0, r1, r2, r3⟩ := rotor_components c⁻¹ ![0, 0, -c]
    rw [normSq_components, r0, r1, r2, r3]
    simp only [Matrix.cons_val_zero, Matrix.cons_val_one, Matrix.cons_val]
    field_simp
    ring

/-- C39 for the function: it takes the spin at the time nearest to 0, and makes a transformation with that rotor and nothing else. -/
theorem rotation_from_spin (chi : List Vec) (t : List ℝ) (ht : t ≠ []) (hl : chi.length = t.length) :
    ∃ (i : Nat) (s : ℝ) (c : Vec), t[i]? = some s ∧ chi[i]? = some c ∧ (∀ s' ∈ t, |s| ≤ |s'|) ∧
      ((¬ ∃ a : ℝ, 0 ≤ a ∧ c = ![0, 0, -a]) → ∃ b, rotationFromSpin chi t = .ok b ∧ Valid b ∧ b.v = 0 ∧ (∀ r, b.S.f r = 0) ∧ rotateVec b.q ![0, 0, 1] = (vabs c)⁻¹ • c ∧ rotateVec (star b.q) c = ![0, 0, vabs c]) ∧
      ((∃ a : ℝ, 0 ≤ a ∧ c = ![0, 0, -a]) → rotationFromSpin chi t = .error .other) := by
  set i := ComMotion.argmin (t.map fun s => |s|) with hi
  have hne : t.map (fun s : ℝ => |s|) ≠ [] := by simpa using ht
  have h1 : i < t.length := by
    have := Lemmas.ComMotion.argmin_lt _ hne
    rwa [List.length_map] at this
  have g1 : t[i]? = some t[i] := List.getElem?_eq_getElem h1
  have g2 : chi[i]? = some (chi[i]'(by omega)) := List.getElem?_eq_getElem (by omega)
  have e : ∀ x, spinRotor (chi[i]'(by omega)) = x → rotationFromSpin chi t = (match x with | none => .error .other | some q => Bms.bmsInit (some q) none none) := by
    intro x hx
    unfold rotationFromSpin
    rw [← hi, pyGet_nat g2, ok_bind, hx]
    cases x <;> rfl
  refine ⟨i, t[i], chi[i]'(by omega), g1, g2, ?_, ?_, ?_⟩
  · intro s' hs'
    have := Lemmas.ComMotion.argmin_le (t.map fun s => |s|) |s'| (List.mem_map_of_mem hs')
    rw [← hi, List.getD_eq_getElem?_getD, List.getElem?_map, g1] at this
    exact this
  · intro hc
    obtain ⟨q, e1, e2, e3, e4⟩ := spin_rotor _ hc
    obtain ⟨b, f1, f2, f3, f4, f5, -⟩ := Bms.init_valid (some q) none none normalOrder (by simp [normalOrder, orders]) 12 (by norm_num) (fun _ h => by cases h) (fun p h => by cases h; exact e2) (fun _ h => by cases h)
    refine ⟨b, ?_, f2, f4, ?_, ?_, ?_⟩
    · rw [e _ e1]
      exact f1
    · intro r
      rw [f5]
      rfl
    · rw [f3]
      exact e3
    · rw [f3]
      exact e4
  · rintro ⟨a, ha, hc⟩
    rw [e none (by rw [hc]; exact spin_rotor_nan a ha)]

/-! ## The center of mass -/

theorem sum_linear (l : List ℝ) (a b : ℝ) : (l.map fun s => a + b * s).sum = l.length * a + b * l.sum := by
  induction l with
  | nil => simp
  | cons x l ih =>
    simp only [List.map_cons, List.sum_cons, ih, List.length_cons]
    push_cast
    ring

theorem sum_moment (l : List ℝ) (a b : ℝ) : ((l.zip (l.map fun s => a + b * s)).map fun p => p.1 * p.2).sum = a * l.sum + b * (l.map (· ^ 2)).sum := by
  induction l with
  | nil => simp
  | cons x l ih =>
    simp only [List.map_cons, List.zip_cons_cons, List.sum_cons, ih]
    ring

theorem spread (l : List ℝ) (c : ℝ) : (l.map fun s => (s - c) ^ 2).sum = (l.map (· ^ 2)).sum - 2 * c * l.sum + l.length * c ^ 2 := by
  induction l with
  | nil => simp
  | cons x l ih =>
    simp only [List.map_cons, List.sum_cons, ih, List.length_cons]
    push_cast
    ring

theorem spread_pos (l : List ℝ) (c a : ℝ) (ha : a ∈ l) (hac : a ≠ c) : 0 < (l.map fun s => (s - c) ^ 2).sum := by
  induction l with
  | nil => simp at ha
  | cons x l ih =>
    simp only [List.map_cons, List.sum_cons]
    have h0 : 0 ≤ (l.map fun s => (s - c) ^ 2).sum := List.sum_nonneg fun y hy => by
      obtain ⟨s, -, rfl⟩ := List.mem_map.mp hy
      positivity
    rcases List.mem_cons.mp ha with rfl | ha
    · have : 0 < (a - c) ^ 2 := by
        have := sub_ne_zero.mpr hac
        positivity
      linarith
    · have := ih ha
      positivity

/-- The fit of a straight line to points on a line, at two or more times. -/
theorem polyfit_exact (t : List ℝ) (a b : ℝ) (ha : a ∈ t) (hb : b ∈ t) (hab : a ≠ b) (x v : ℝ) : polyfit t (t.map fun s => x + v * s) = (v, x) := by
  have hn : (0 : ℝ) < t.length := by exact_mod_cast List.length_pos_of_mem ha
  have hd : (t.length : ℝ) * (t.map (· ^ 2)).sum - t.sum ^ 2 ≠ 0 := by
    set c := t.sum / t.length with hc
    have h1 : 0 < (t.map fun s => (s - c) ^ 2).sum := by
      by_cases h : a = c
      · exact spread_pos t c b hb (fun hbc => hab (h.trans hbc.symm))
      · exact spread_pos t c a ha h
    rw [spread] at h1
    have h2 : t.sum = t.length * c := by
      rw [hc]
      field_simp
    have h3 : (t.length : ℝ) * (t.map (· ^ 2)).sum - t.sum ^ 2 = t.length * ((t.map (· ^ 2)).sum - 2 * c * t.sum + t.length * c ^ 2) := by
      rw [h2]
      ring
    rw [h3]
    positivity
  unfold polyfit
  simp only [sum_linear, sum_moment]
  refine Prod.ext ?_ ?_
  · simp only
    rw [div_eq_iff hd]
    ring
  · simp only
    rw [div_eq_iff hd]
    ring

/-- C58: if the center of mass moves uniformly, with a velocity below that of light, the transformation takes it to rest at the origin: light that it sends at time `s` arrives, in the new
frame, in all directions at the same time, its proper time. -/
theorem com_to_rest (x v : Vec) (hv : dot v v < 1) (t : List ℝ) (a b : ℝ) (ha : a ∈ t) (hb : b ∈ t) (hab : a ≠ b) :
    ∃ T, transformationFromCom (fun i => t.map fun s => x i + v i * s) t = .ok T ∧ Valid T ∧ T.v = v ∧ T.q = 1 ∧
      ∀ (s : ℝ) (r : Vec), Sphere r → (element T (s * √(1 - dot v v), r)).1 = cut (s, x + s • v) (element T (s * √(1 - dot v v), r)).2 := by
  have hfit : ∀ i, polyfit t (t.map fun s => x i + v i * s) = (v i, x i) := fun i => polyfit_exact t a b ha hb hab (x i) (v i)
  obtain ⟨T, e1, e2, e3, e4, e5, e6, -⟩ := Bms.init_valid none (some v) (some { ell := 1, f := fun r => -(x 0 * r 0 + x 1 * r 1 + x 2 * r 2) }) [.supertranslation, .boost_velocity, .frame_rotation]
    (by simp [orders]) 12 (by norm_num) (fun _ h => by cases h; norm_num) (fun p h => by cases h) (fun _ h => by cases h; exact hv)
  have e3 : T.q = 1 := e3
  have e4 : T.v = v := e4
  refine ⟨T, ?_, e2, e4, e3, ?_⟩
  · unfold transformationFromCom
    simp only [hfit]
    exact e1
  · intro s r hr
    have hS : ∀ n : Vec, superOf T n = -(x 0 * n 0 + x 1 * n 1 + x 2 * n 2) := by
      intro n
      unfold superOf
      rw [e6, e5]
      show (1 : ℝ) * -(x 0 * ((1 : ℝ)⁻¹ • n) 0 + x 1 * ((1 : ℝ)⁻¹ • n) 1 + x 2 * ((1 : ℝ)⁻¹ • n) 2) = _
      rw [inv_one, one_smul, one_mul]
    have hL : lorentz T.order T.q T.v (null r) = boost v (null r) := by
      rw [e6, e3, e4]
      show rot 1 (boost v (null r)) = _
      unfold rot
      have : ∀ w, rotateVec 1 w = w := by
        intro w
        funext i
        have o0 : (1 : Quaternion ℝ).re = 1 := rfl
        have o1 : (1 : Quaternion ℝ).imI = 0 := rfl
        have o2 : (1 : Quaternion ℝ).imJ = 0 := rfl
        have o3 : (1 : Quaternion ℝ).imK = 0 := rfl
        fin_cases i
        · show rotateVec 1 w 0 = w 0
          rw [rotateVec_0, o0, o1, o2, o3]
          ring
        · show rotateVec 1 w 1 = w 1
          rw [rotateVec_1, o0, o1, o2, o3]
          ring
        · show rotateVec 1 w 2 = w 2
          rw [rotateVec_2, o0, o1, o2, o3]
          ring
      rw [this]
    unfold element toOld
    simp only [hL, hS]
    set X := boost v (null r) with hX
    have hg := gam_pos v hv
    have hgs := gam_sq v hv
    have hsq : √(1 - dot v v) = (gam v)⁻¹ := by
      unfold gam
      rw [one_div, inv_inv]
    have hX1 : X.1 = gam v * (1 + dot v r) := rfl
    have hX2 : X.2 = r + (gam v ^ 2 / (gam v + 1) * dot v r + gam v * 1) • v := rfl
    have hdir : ∀ i, dir X i = X.1⁻¹ * X.2 i := fun i => rfl
    have hpos : 0 < X.1 := by
      have hf : Future (null r) := ⟨by show (0 : ℝ) < 1; norm_num, by show dot r r = 1 ^ 2; rw [hr]; norm_num⟩
      exact (boost_future v hv hf).1
    have hvX : dot v X.2 = dot v r + (gam v ^ 2 / (gam v + 1) * dot v r + gam v) * dot v v := by
      rw [hX2]
      simp only [dot, Fin.sum_univ_three, Pi.add_apply, Pi.smul_apply, smul_eq_mul]
      ring
    have hcut : cut (s, x + s • v) (dir X) = s - (x 0 * dir X 0 + x 1 * dir X 1 + x 2 * dir X 2) - s * (X.1⁻¹ * dot v X.2) := by
      unfold cut
      simp only [dot, Fin.sum_univ_three, Pi.add_apply, Pi.smul_apply, smul_eq_mul, hdir]
      ring
    rw [hcut, hsq]
    have key : (gam v)⁻¹ = X.1 - dot v X.2 := by
      rw [hvX, hX1]
      have hd : dot v v = 1 - 1 / gam v ^ 2 := by
        field_simp
        linarith
      rw [hd]
      have : gam v + 1 ≠ 0 := by linarith
      field_simp
      ring
    rw [key]
    field_simp
    ring

end Verif.Props.Superrest
