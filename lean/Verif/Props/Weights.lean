import Verif.Model.Weights
import Mathlib.Tactic.FieldSimp
import Mathlib.Tactic.Ring
import Mathlib.Tactic.LinearCombination
import Mathlib.Analysis.Calculus.Deriv.Mul
import Mathlib.Analysis.Calculus.Deriv.Comp

/-!
# C18: weights, SI units and dimensionless data; C51: descriptor strings
-/

set_option linter.unusedSimpArgs false

namespace Verif.Props.Weights
open Verif.Weights

/-! ## What the numbers should be

`psiN n` is the number of the Weyl component `psi_n`.  A tetrad component `psi_n` has spin and boost
weight `2 - n` and falls off like `r ^ -(5 - n)`; curvature has two powers of inverse length. -/

/-- The data type of the Weyl scalar `psi_n`. -/
def psiN (n : Nat) : Int := n + 1

theorem psiN_names : [psiN 0, psiN 1, psiN 2, psiN 3, psiN 4] = [psi0, psi1, psi2, psi3, psi4] := by decide

/-- C18.  The Weyl scalars. -/
theorem psi_weights (n : Nat) (hn : n ≤ 4) :
    spinWeight (psiN n) = .ok (2 - n) ∧ conformalWeight (psiN n) false = .ok (2 - n) ∧
      pyGet RScaling (psiN n) = .ok (5 - n) ∧ pyGet MScaling (psiN n) = .ok 2 := by
  obtain rfl | rfl | rfl | rfl | rfl : n = 0 ∨ n = 1 ∨ n = 2 ∨ n = 3 ∨ n = 4 := by omega
  all_goals decide

/-- C18.  With the radius scaled out all Weyl scalars have conformal weight -3, so the five of them
mix with each other only through the direction-dependent null rotation. -/
theorem psi_conformal_scaled (n : Nat) (hn : n ≤ 4) : conformalWeight (psiN n) true = .ok (-3) := by
  obtain rfl | rfl | rfl | rfl | rfl : n = 0 ∨ n = 1 ∨ n = 2 ∨ n = 3 ∨ n = 4 := by omega
  all_goals decide

/-- C18.  A time derivative lowers the conformal weight by one, raises the mass dimension by one
and changes neither spin weight nor falloff: `hdot` against `h`, `news` against `h`. -/
theorem derivative_weights (dt : Int) (h1 : dt = hdot ∨ dt = news) (rOut : Bool) :
    ∃ c r m s, conformalWeight h rOut = .ok c ∧ conformalWeight dt rOut = .ok (c - 1) ∧
      spinWeight h = .ok s ∧ spinWeight dt = .ok s ∧ pyGet RScaling h = .ok r ∧
      pyGet RScaling dt = .ok r ∧ pyGet MScaling h = .ok m ∧ pyGet MScaling dt = .ok (m + 1) := by
  rcases h1 with rfl | rfl <;> cases rOut <;> exact ⟨_, _, _, _, rfl, by decide, rfl, by decide, rfl,
    by decide, rfl, by decide⟩

/-- C18.  `h` is (up to a factor) the complex conjugate of `sigma`: opposite spin weights, the same
conformal weight once the radius is scaled out, both dimensionless. -/
theorem sigma_h_weights :
    spinWeight sigma = .ok 2 ∧ spinWeight h = .ok (-2) ∧
      conformalWeight sigma true = .ok (-1) ∧ conformalWeight h true = .ok (-1) ∧
      pyGet MScaling sigma = .ok 0 ∧ pyGet MScaling h = .ok 0 := by decide

/-- C18.  `gamma_weight` is the power of the mass that makes the stored data dimensionless. -/
theorem gamma_weight_spec (dt r m : Int) (hr : pyGet RScaling dt = .ok r) (hm : pyGet MScaling dt = .ok m)
    (rOut mOut : Bool) :
    gammaWeight dt rOut mOut =
      .ok (match mOut, rOut with
        | false, _ => 0
        | true, false => m
        | true, true => m - r) := by
  unfold gammaWeight
  rw [hr, hm]
  cases mOut <;> cases rOut <;> (simp [ok_bind, pure_eq_ok]; try rfl)

/-- A data type with known scalings. -/
def Known (dt r m : Int) : Prop := pyGet RScaling dt = .ok r ∧ pyGet MScaling dt = .ok m

theorem SI_units_ok {Msun c pc M R : ℝ} {w : W} {r m : Int} (hk : Known w.dataType r m) :
    SI_units Msun c pc M R w = .ok
      { t := if w.mOut then w.t.map fun x => M * Msun / c * x else w.t
        data := w.data.map fun x =>
          (if w.rOut then
            if w.mOut then (R * (1000000 * pc) / (M * Msun)) ^ (-r) * (M * Msun) ^ (-m)
            else (R * (1000000 * pc) / (M * Msun)) ^ (-r)
          else if w.mOut then (M * Msun) ^ (-m) else 1) * x
        dataType := w.dataType, rOut := false, mOut := false } := by
  unfold SI_units
  rw [hk.1, hk.2]
  rfl

/-- C18.  Converting to SI units twice is the same as converting once: the flags are cleared. -/
theorem SI_units_idempotent {Msun c pc M R M' R' : ℝ} {w w1 : W} {r m : Int}
    (hk : Known w.dataType r m) (h1 : SI_units Msun c pc M R w = .ok w1) :
    SI_units Msun c pc M' R' w1 = .ok w1 := by
  rw [SI_units_ok hk] at h1
  simp only [Except.ok.injEq] at h1
  subst h1
  refine (SI_units_ok (r := r) (m := m) (by exact hk)).trans ?_
  simp

/-- C18.  The times are multiplied by the mass in seconds. -/
theorem SI_units_times {Msun c pc M R : ℝ} {w w1 : W} {r m : Int} (hk : Known w.dataType r m)
    (hm : w.mOut = true) (h1 : SI_units Msun c pc M R w = .ok w1) :
    w1.t = w.t.map fun x => (M * Msun / c) * x := by
  rw [SI_units_ok hk] at h1
  simp only [Except.ok.injEq] at h1
  subst h1
  simp [hm]

/-- C18.  Distance: data at `k` times the distance are smaller by `k ^ r_scaling`. -/
theorem SI_units_distance {Msun c pc M R k : ℝ} (hk0 : k ≠ 0) {w w1 w2 : W} {r m : Int}
    (hk : Known w.dataType r m) (hr : w.rOut = true)
    (h1 : SI_units Msun c pc M R w = .ok w1) (h2 : SI_units Msun c pc M (k * R) w = .ok w2) :
    w1.data = w2.data.map (fun x => k ^ r * x) ∧ w1.t = w2.t := by
  rw [SI_units_ok hk] at h1 h2
  simp only [Except.ok.injEq] at h1 h2
  subst h1 h2
  have e : k * R * (1000000 * pc) / (M * Msun) = k * (R * (1000000 * pc) / (M * Msun)) := by ring
  refine ⟨?_, rfl⟩
  simp only [hr, if_true, e, List.map_map]
  apply List.map_congr_left
  intro x _
  have hz : k ^ r * k ^ (-r) = 1 := by rw [← zpow_add₀ hk0]; simp
  generalize R * (1000000 * pc) / (M * Msun) = ρ
  generalize M * Msun = μ
  simp only [Function.comp, mul_zpow]
  split
  · linear_combination (-x * ρ ^ (-r) * μ ^ (-m)) * hz
  · linear_combination (-x * ρ ^ (-r)) * hz

/-- C18 (finding).  The units of the result are metres: if `hdot` is the time derivative of `h` in
geometric units, then the time derivative (per second) of `h` in SI units is `c` times the data that
`SI_units` gives for `hdot`. -/
theorem SI_units_hdot {Msun c pc M R : ℝ} (hM : M * Msun ≠ 0) (hc : c ≠ 0) (f f' : ℝ → ℝ)
    (hf : ∀ x, HasDerivAt f (f' x) x) (ts : List ℝ) :
    ∃ amp amp' : ℝ,
      SI_units Msun c pc M R ⟨ts, ts.map f, h, true, true⟩ =
        .ok ⟨ts.map fun x => M * Msun / c * x, ts.map fun x => amp * f x, h, false, false⟩ ∧
      SI_units Msun c pc M R ⟨ts, ts.map f', hdot, true, true⟩ =
        .ok ⟨ts.map fun x => M * Msun / c * x, ts.map fun x => amp' * f' x, hdot, false, false⟩ ∧
      ∀ x, HasDerivAt (fun s => amp * f (s / (M * Msun / c))) (c * (amp' * f' x)) (M * Msun / c * x) := by
  refine ⟨(R * (1000000 * pc) / (M * Msun)) ^ (-1 : ℤ),
    (R * (1000000 * pc) / (M * Msun)) ^ (-1 : ℤ) * (M * Msun) ^ (-1 : ℤ), ?_, ?_, ?_⟩
  · rw [SI_units_ok (r := 1) (m := 0) ⟨rfl, rfl⟩]
    simp [List.map_map, Function.comp_def]
  · rw [SI_units_ok (r := 1) (m := 1) ⟨rfl, rfl⟩]
    simp [List.map_map, Function.comp_def]
  · intro x
    have hs : M * Msun / c ≠ 0 := div_ne_zero hM hc
    have hx : M * Msun / c * x / (M * Msun / c) = x := by
      rw [mul_comm]; exact mul_div_cancel_right₀ x hs
    have h1 : HasDerivAt (fun s : ℝ => s / (M * Msun / c)) (1 / (M * Msun / c)) (M * Msun / c * x) :=
      (hasDerivAt_id _).div_const _
    have h2 := HasDerivAt.comp (M * Msun / c * x) (by rw [hx]; exact hf x) h1
    have h3 := h2.const_mul ((R * (1000000 * pc) / (M * Msun)) ^ (-1 : ℤ))
    refine h3.congr_deriv ?_
    rw [zpow_neg_one (M * Msun)]
    field_simp

/-- C18 (finding).  For the Weyl scalars the documented result, in `s^-2`, is `c^2` times the data
that `SI_units` returns: the mass enters in metres, not in seconds. -/
theorem SI_units_psi {Msun c pc M R : ℝ} (hM : M * Msun ≠ 0) (hc : c ≠ 0) (n : Nat) (hn : n ≤ 4)
    (ts ds : List ℝ) :
    ∃ w1, SI_units Msun c pc M R ⟨ts, ds, psiN n, true, true⟩ = .ok w1 ∧
      w1.data.map (fun x => c ^ 2 * x) =
        ds.map fun x => (R * (1000000 * pc) / (M * Msun)) ^ (-(5 - n) : ℤ) * (M * Msun / c) ^ (-2 : ℤ) * x := by
  obtain ⟨-, -, hr, hm⟩ := psi_weights n hn
  refine ⟨_, SI_units_ok (r := 5 - n) (m := 2) ⟨hr, hm⟩, ?_⟩
  simp only [if_true, List.map_map]
  apply List.map_congr_left
  intro x _
  generalize R * (1000000 * pc) / (M * Msun) = ρ
  generalize M * Msun = μ at hM
  simp only [Function.comp]
  rw [div_zpow]
  have e : c ^ (-2 : ℤ) = (c ^ 2)⁻¹ := by rw [zpow_neg]; rfl
  rw [e]
  have : c ^ 2 ≠ 0 := pow_ne_zero 2 hc
  field_simp

/-! ## Dimensionless data -/

/-- The data types `make_variable_dimensionless` knows. -/
def Supported (dt : Int) : Prop := (∃ n : Nat, n ≤ 4 ∧ dt = psiN n) ∨ dt = h ∨ dt = hdot

theorem supported_cases {dt : Int} (hs : Supported dt) :
    dt = 1 ∨ dt = 2 ∨ dt = 3 ∨ dt = 4 ∨ dt = 5 ∨ dt = 7 ∨ dt = 8 := by
  rcases hs with ⟨n, hn, rfl⟩ | rfl | rfl
  · unfold psiN; omega
  · simp [h]
  · simp [hdot]

/-- C18.  `make_variable_dimensionless` divides the times by the mass and multiplies the data by the
power of the mass given by the tables (`m_scaling - r_scaling`). -/
theorem makeDimensionless_spec (M : ℝ) (w : W) (hm : w.mOut = false) (hs : Supported w.dataType) :
    ∃ r m, Known w.dataType r m ∧
      makeDimensionless M w = .ok { w with t := w.t.map fun x => x / M, data := w.data.map fun x => x * M ^ (m - r), mOut := true } := by
  unfold makeDimensionless unitScale
  rcases supported_cases hs with e | e | e | e | e | e | e
  · refine ⟨5, 2, by rw [e]; constructor <;> decide, ?_⟩
    simp [hm, e, ok_bind, pure_eq_ok, psi0, psi1, psi2, psi3, psi4]
  · refine ⟨4, 2, by rw [e]; constructor <;> decide, ?_⟩
    simp [hm, e, ok_bind, pure_eq_ok, psi0, psi1, psi2, psi3, psi4]
  · refine ⟨3, 2, by rw [e]; constructor <;> decide, ?_⟩
    simp [hm, e, ok_bind, pure_eq_ok, psi0, psi1, psi2, psi3, psi4]
  · refine ⟨2, 2, by rw [e]; constructor <;> decide, ?_⟩
    simp [hm, e, ok_bind, pure_eq_ok, psi0, psi1, psi2, psi3, psi4]
  · refine ⟨1, 2, by rw [e]; constructor <;> decide, ?_⟩
    simp [hm, e, ok_bind, pure_eq_ok, psi0, psi1, psi2, psi3, psi4]
  · refine ⟨1, 0, by rw [e]; constructor <;> decide, ?_⟩
    simp [hm, e, ok_bind, pure_eq_ok, psi0, psi1, psi2, psi3, psi4, h]
  · refine ⟨1, 1, by rw [e]; constructor <;> decide, ?_⟩
    simp [hm, e, ok_bind, pure_eq_ok, psi0, psi1, psi2, psi3, psi4, h, hdot]

/-- C18.  Other data types are refused. -/
theorem makeDimensionless_refuses (M : ℝ) (w : W) (hm : w.mOut = false) (hs : ¬ Supported w.dataType) :
    makeDimensionless M w = .error .valueError := by
  have hp : w.dataType ∉ [psi4, psi3, psi2, psi1, psi0] := by
    intro hmem
    apply hs
    left
    simp only [List.mem_cons, List.not_mem_nil, or_false] at hmem
    rcases hmem with e | e | e | e | e <;> rw [e]
    exacts [⟨4, by omega, rfl⟩, ⟨3, by omega, rfl⟩, ⟨2, by omega, rfl⟩, ⟨1, by omega, rfl⟩, ⟨0, by omega, rfl⟩]
  have h1 : w.dataType ≠ h := fun e => hs (Or.inr (Or.inl e))
  have h2 : w.dataType ≠ hdot := fun e => hs (Or.inr (Or.inr e))
  unfold makeDimensionless unitScale
  simp only [hm, hp, h1, h2, if_false]
  rfl

/-- C18.  A second call changes nothing. -/
theorem makeDimensionless_idempotent (M M' : ℝ) (w w1 : W) (h1 : makeDimensionless M w = .ok w1) :
    makeDimensionless M' w1 = .ok w1 := by
  have hm : w1.mOut = true := by
    unfold makeDimensionless at h1
    split at h1
    · simp only [Except.ok.injEq] at h1; subst h1; assumption
    · generalize unitScale w.dataType M = g at h1
      cases g with
      | error e => cases h1
      | ok f => simp only [ok_bind, pure_eq_ok, Except.ok.injEq] at h1; rw [← h1]
  unfold makeDimensionless
  rw [hm]; rfl

/-- C18.  Scaling with the inverse mass undoes it. -/
theorem makeDimensionless_inverse (M : ℝ) (hM : M ≠ 0) (w w1 : W) (hm : w.mOut = false)
    (hs : Supported w.dataType) (h1 : makeDimensionless M w = .ok w1) :
    makeDimensionless (1 / M) { w1 with mOut := false } = .ok { w with mOut := true } := by
  obtain ⟨r, m, hk, e⟩ := makeDimensionless_spec M w hm hs
  rw [e] at h1
  simp only [Except.ok.injEq] at h1
  subst h1
  obtain ⟨r', m', hk', e'⟩ := makeDimensionless_spec (1 / M)
    { w with t := w.t.map fun x => x / M, data := w.data.map fun x => x * M ^ (m - r), mOut := false } rfl hs
  have er : r' = r := by
    have a := hk'.1; rw [show pyGet RScaling _ = .ok r from hk.1] at a; exact (Except.ok.inj a).symm
  have em : m' = m := by
    have a := hk'.2; rw [show pyGet MScaling _ = .ok m from hk.2] at a; exact (Except.ok.inj a).symm
  subst er em
  refine e'.trans ?_
  simp only [List.map_map, Except.ok.injEq, W.mk.injEq, and_true]
  constructor
  · conv_rhs => rw [← List.map_id w.t]
    apply List.map_congr_left
    intro x _
    simp only [Function.comp, id]; field_simp
  · conv_rhs => rw [← List.map_id w.data]
    apply List.map_congr_left
    intro x _
    simp only [Function.comp, id, one_div, inv_zpow]
    have : M ^ (m' - r') ≠ 0 := zpow_ne_zero _ hM
    field_simp

/-- C18.  Making radius-scaled data dimensionless with the mass in metres and then converting to SI
units with the same mass gives the original data divided by the `r_scaling`-th power of the distance
in metres, whatever the mass; times in metres become times in seconds. -/
theorem dimensionless_then_SI {Msun c pc M R : ℝ} (hM : M * Msun ≠ 0) {w w1 w2 : W}
    (hm : w.mOut = false) (hr : w.rOut = true) (hs : Supported w.dataType)
    (h1 : makeDimensionless (M * Msun) w = .ok w1) (h2 : SI_units Msun c pc M R w1 = .ok w2) :
    ∃ r m, Known w.dataType r m ∧ w2.data = w.data.map (fun x => x * (R * (1000000 * pc)) ^ (-r)) ∧
      w2.t = w.t.map fun x => x / c := by
  obtain ⟨r, m, hk, e⟩ := makeDimensionless_spec (M * Msun) w hm hs
  rw [e] at h1
  simp only [Except.ok.injEq] at h1
  subst h1
  replace h2 := (SI_units_ok (r := r) (m := m) (by exact hk)).symm.trans h2
  simp only [Except.ok.injEq] at h2
  subst h2
  refine ⟨r, m, hk, ?_, ?_⟩
  · simp only [hr, if_true, List.map_map]
    apply List.map_congr_left
    intro x _
    simp only [Function.comp, div_zpow]
    have h0 : (M * Msun) ^ (m - r) = (M * Msun) ^ m * (M * Msun) ^ (-r) := by
      rw [← zpow_add₀ hM]; rfl
    have hz : (M * Msun) ^ m * (M * Msun) ^ (-m) = 1 := by rw [← zpow_add₀ hM]; simp
    have hr0 : (M * Msun) ^ (-r) ≠ 0 := zpow_ne_zero _ hM
    rw [h0]
    field_simp
    linear_combination ((R * 1000000 * pc) ^ (-r) * x) * hz
  · simp only [if_true, List.map_map]
    apply List.map_congr_left
    intro x _
    generalize M * Msun = μ at hM
    simp only [Function.comp]
    field_simp

/-- C18.  The scaling of finite-radius data on reading agrees with the same tables and with
`make_variable_dimensionless`. -/
theorem finite_radius_scale_spec (M : ℝ) (dt : Int) (hs : Supported dt) :
    ∃ r m, Known dt r m ∧ finiteRadiusScale dt M = .ok (M ^ (m - r), r) := by
  unfold finiteRadiusScale
  rcases supported_cases hs with rfl | rfl | rfl | rfl | rfl | rfl | rfl
  · refine ⟨5, 2, by constructor <;> decide, ?_⟩
    simp [h, hdot, psi0, psi1, psi2, psi3, psi4]
  · refine ⟨4, 2, by constructor <;> decide, ?_⟩
    simp [h, hdot, psi0, psi1, psi2, psi3, psi4]
  · refine ⟨3, 2, by constructor <;> decide, ?_⟩
    simp [h, hdot, psi0, psi1, psi2, psi3, psi4]
  · refine ⟨2, 2, by constructor <;> decide, ?_⟩
    simp [h, hdot, psi0, psi1, psi2, psi3, psi4]
  · refine ⟨1, 2, by constructor <;> decide, ?_⟩
    simp [h, hdot, psi0, psi1, psi2, psi3, psi4]
  · refine ⟨1, 0, by constructor <;> decide, ?_⟩
    simp [h, hdot, psi0, psi1, psi2, psi3, psi4]
  · refine ⟨1, 1, by constructor <;> decide, ?_⟩
    simp [h, hdot, psi0, psi1, psi2, psi3, psi4]

/-! ## Descriptor strings (C51) -/

/-- The power of the mass in the descriptor, 0 if the mass is not scaled out. -/
def massPower (dt : Int) (rOut mOut : Bool) : Py Int := gammaWeight dt rOut mOut

/-- A positive power as it is written in file names. -/
def power (base : String) (e : Int) : String :=
  if e = 0 then "" else if e = 1 then base else base ++ toString e

/-- C51.  The descriptor spells out the quantity with the powers of `r` and `M` scaled out of it. -/
theorem descriptor_spells (dt r m e : Int) (name : String) (rOut mOut : Bool) (h0 : 1 ≤ dt)
    (hk : Known dt r m) (hr : 0 ≤ r) (hn : pyGet DataNames dt = .ok name)
    (he : gammaWeight dt rOut mOut = .ok e) :
    descriptorString dt rOut mOut = .ok
      (power "r" (if rOut then r else 0) ++
        (if e < 0 then name ++ ("Over" ++ power "M" (-e)) else power "M" e ++ name)) := by
  rw [gamma_weight_spec dt r m hk.1 hk.2] at he
  have hu : dt ≠ UnknownDataType := by simp only [UnknownDataType]; omega
  unfold descriptorString
  rw [hn, hk.1, hk.2]
  simp only [ok_bind, pure_eq_ok, if_neg hu]
  have hrp : (if rOut = true then (if r = 1 then "r" else if r > 1 then "r" ++ pyStr r else "") else "") =
      power "r" (if rOut then r else 0) := by
    cases rOut
    · rfl
    · simp only [if_true, power, pyStr]
      obtain h1 | h1 | h1 : r = 0 ∨ r = 1 ∨ r > 1 := by omega
      · simp [h1]
      · simp [h1]
      · rw [if_neg (by omega : ¬ r = 1), if_pos h1, if_neg (by omega : ¬ r = 0)]
        rw [if_neg (by omega : ¬ r = 1)]
  rw [hrp]
  generalize power "r" (if rOut = true then r else 0) = pre
  have hover : ∀ z : Int, z < -1 → power "M" (-z) = "M" ++ toString (-z) := by
    intro z hz
    unfold power
    rw [if_neg (by omega), if_neg (by omega)]
  have hM : ∀ z : Int, z > 1 → power "M" z = "M" ++ toString z := by
    intro z hz
    unfold power
    rw [if_neg (by omega), if_neg (by omega)]
  cases mOut with
  | false =>
    have e0 : e = 0 := by cases rOut <;> simpa using (Except.ok.inj he).symm
    subst e0
    simp [power]
  | true =>
    have e1 : m - (if rOut = true then r else 0) = e := by cases rOut <;> simpa using Except.ok.inj he
    simp only [if_true, e1]
    obtain h1 | h1 | h1 | h1 | h1 : e < -1 ∨ e = -1 ∨ e = 0 ∨ e = 1 ∨ e > 1 := by omega
    · rw [if_pos h1, if_pos (by omega : e < 0), hover e h1]
      congr 1
      simp only [pyStr, String.append_assoc]
      rw [← String.append_assoc (s₁ := "Over")]; rfl
    · subst h1; simp [power, String.append_assoc]
    · subst h1; simp [power]
    · subst h1; simp [power, String.append_assoc]
    · rw [if_neg (by omega), if_neg (by omega), if_neg (by omega), if_neg (by omega), if_neg (by omega),
        hM e h1]
      simp only [pyStr, String.append_assoc]

/-- C51, the part that holds: two known types of data with the same descriptor string have the same
data type, and agree in the power of the mass scaled out.  Missing: the mass flag itself, see
`descriptor_collision`. -/
theorem descriptor_partial (a b : Fin 11) (r m r' m' : Bool) (s : String)
    (h1 : descriptorString (a.val : Int) r m = .ok s) (h2 : descriptorString (b.val : Int) r' m' = .ok s)
    (hne : a ≠ 0) :
    a = b ∧ massPower a.val r m = massPower b.val r' m' := by
  have key : ∀ (a b : Fin 11) (r m r' m' : Bool), a ≠ 0 →
      descriptorString (a.val : Int) r m = descriptorString (b.val : Int) r' m' →
      a = b ∧ massPower a.val r m = massPower b.val r' m' := by decide
  exact key a b r m r' m' hne (h1.trans h2.symm)

/-- C51 (finding).  The descriptor does not tell whether the mass has been scaled out of `r hdot`. -/
theorem descriptor_collision :
    descriptorString hdot true true = .ok "rhdot" ∧ descriptorString hdot true false = .ok "rhdot" := by
  decide

example : descriptorString psi4 true true = .ok "rMPsi4" := by decide
example : descriptorString h true true = .ok "rhOverM" := by decide
example : Supported psi4 := Or.inl ⟨4, by omega, rfl⟩

end Verif.Props.Weights
