import Verif.Model.Samples
import Verif.Spec.Samples
import Verif.Props.Modes
import Verif.Props.Weights
import Verif.Lemmas.ModeCalc
import Verif.Lemmas.Balance
import Verif.Props.FluxIntegral
import Verif.Props.BoostFlux

/-!
# The sample waveforms
-/

namespace Verif.Props.Samples
open Verif.Samples Verif.Modes Verif.Weights Verif.GridMultiply Verif.Spec.Sphere Verif.Spec.Samples Verif.Balance ComplexConjugate

attribute [local irreducible] defaultTimes

/-! ## Columns -/

theorem totalSize_eq {a b : Int} (h : 0 ≤ a) (h' : a ≤ b) : totalSize a b = (LMRange a b).length := by
  rw [Verif.Props.Modes.LM_length a b h (by omega)]
  unfold totalSize
  ring

theorem onColumn_mode {a b ell m : Int} (h : 0 ≤ a) (h1 : a ≤ ell) (h2 : ell ≤ b) (hm : |m| ≤ ell) (data : Nat → Row ℂ) (f : Nat → ℂ → ℂ) :
    onColumn (totalSize a b) data (lmIndex ell m a) f = .ok fun i => (data i).set (lmIndex ell m a) (f i (data i (lmIndex ell m a))) := by
  obtain ⟨q1, q2, -⟩ := Verif.Props.Modes.LM_index a b ell m h ((Verif.Props.Modes.mem_LM _ _ _ _).2 ⟨h1, h2, hm⟩)
  rw [← totalSize_eq h (by omega)] at q2
  unfold onColumn
  simp only
  rw [if_neg (by omega), if_neg (by omega)]

theorem set_mode {a ell m ell' m' : Int} (hm : |m| ≤ ell) (hm' : |m'| ≤ ell') (row : Row ℂ) (v : ℂ) :
    row.set (lmIndex ell m a) v (lmIndex ell' m' a) = if ell' = ell ∧ m' = m then v else row (lmIndex ell' m' a) := by
  unfold Row.set
  by_cases h : ell' = ell ∧ m' = m
  · rw [if_pos h, h.1, h.2, if_pos rfl]
  · rw [if_neg h, if_neg fun e => h (lmIndex_inj (abs_le.1 hm') (abs_le.1 hm) e)]

/-! ## One mode -/

set_option maxRecDepth 20000 in
theorem min_two : ((LMRange 2 8).map Prod.fst).min? = some 2 := by decide

set_option maxRecDepth 20000 in
theorem length_two : ((LMRange 2 8).length : Int) = 77 := by decide

/-- The functions of `single_mode` and of the waveforms that depend on time: what is in the other column is not changed. -/
theorem single_mode_spec (ell m : Int) (kw : Kwargs) (h1 : 2 ≤ ell) (h2 : ell ≤ 8) (hm : |m| ≤ ell) : ∃ w, singleMode ell m kw = .ok w ∧ w.t = defaultTimes ∧ w.ellMin = 2 ∧ w.ellMax = 8 ∧
    ∀ i ell' m', 2 ≤ ell' → ell' ≤ 8 → |m'| ≤ ell' → w.data i (lmIndex ell' m' w.ellMin) = if ell' = ell ∧ m' = m then 1 else 0 := by
  have hc := onColumn_mode (a := 2) (b := 8) (by norm_num) h1 h2 hm (fun _ _ => 0) fun _ _ => 1
  rw [totalSize_eq (by norm_num) (by norm_num)] at hc
  refine ⟨{ t := defaultTimes, frame := [], data := fun i => Row.set (fun _ => 0) (lmIndex ell m 2) 1, history := ["# Called from constant_waveform"], frameType := 1, dataType := Weights.h, rOut := true, mOut := true, ellMin := 2, ellMax := 8 }, ?_, Eq.refl defaultTimes, Eq.refl (2 : Int), Eq.refl (8 : Int), fun i ell' m' h1' h2' hm' => ?_⟩
  · unfold singleMode modesConstructor
    have e : pyGet SpinWeights h = .ok (-2) := rfl
    have emin : ((LMRange 2 8).map Prod.fst).min? = some 2 := min_two
    simp only [Option.getD_none, e, ok_bind, abs_neg, abs_two, emin, hc]
    rfl
  · exact set_mode (a := 2) hm hm' (fun _ => 0) 1

/-- C78: `ell` and `m` are not checked: `single_mode(1, 0)` is the waveform with the mode (8, 7), `single_mode(2, 3)` that with the mode (3, -3). -/
theorem single_mode_wrong (kw : Kwargs) : (∃ w, singleMode 1 0 kw = .ok w ∧ ∀ i, w.data i (lmIndex 8 7 w.ellMin) = 1) ∧ singleMode 2 3 kw = singleMode 3 (-3) kw ∧
    singleMode 9 (-9) kw = .error .indexError := by
  have e : pyGet SpinWeights h = .ok (-2) := rfl
  have emin : ((LMRange 2 8).map Prod.fst).min? = some 2 := min_two
  have en : ((LMRange 2 8).length : Int) = 77 := length_two
  refine ⟨⟨{ t := defaultTimes, frame := [], data := fun i => Row.set (fun _ => 0) 75 1, history := ["# Called from constant_waveform"], frameType := 1, dataType := Weights.h, rOut := true, mOut := true, ellMin := 2, ellMax := 8 }, ?_, fun i => ?_⟩, ?_, ?_⟩
  · unfold singleMode modesConstructor
    simp only [Option.getD_none, e, ok_bind, abs_neg, abs_two, emin, en]
    have : onColumn 77 (fun _ _ => 0) (lmIndex 1 0 2) (fun _ _ => 1) = .ok fun i => Row.set (fun _ => 0) 75 1 := rfl
    rw [this]
    rfl
  · rfl
  · unfold singleMode modesConstructor
    simp only [Option.getD_none, e, ok_bind, abs_neg, abs_two, emin]
    rfl
  · unfold singleMode modesConstructor
    simp only [Option.getD_none, e, ok_bind, abs_neg, abs_two, emin, en]
    have : onColumn 77 (fun _ _ => 0) (lmIndex 9 (-9) 2) (fun _ _ => 1) = .error .indexError := rfl
    rw [this]
    rfl

/-- C78: `constant_waveform` has the value `m - i m` in the mode `(ell, m)`. -/
theorem constant_spec (kw : Kwargs) : ∃ w, constantWaveform kw = .ok w ∧ w.t = defaultTimes ∧ w.ellMin = 2 ∧ w.ellMax = 8 ∧
    ∀ i ell m, 2 ≤ ell → ell ≤ 8 → |m| ≤ ell → w.data i (lmIndex ell m w.ellMin) = m - Complex.I * m := by
  have e : pyGet SpinWeights h = .ok (-2) := rfl
  refine ⟨_, by unfold constantWaveform modesConstructor; simp only [Option.getD_none, e, ok_bind, abs_neg, abs_two]; rfl, Eq.refl defaultTimes, Eq.refl (2 : Int), Eq.refl (8 : Int), fun i ell m h1 h2 hm => ?_⟩
  obtain ⟨q1, -, q3⟩ := Verif.Props.Modes.LM_index 2 8 ell m (by norm_num) ((Verif.Props.Modes.mem_LM _ _ _ _).2 ⟨h1, h2, hm⟩)
  dsimp only
  rw [if_pos q1, q3]

/-- C78: the keyword arguments of `constant_waveform` and `single_mode`, which are said to be passed on, have no effect. -/
theorem kwargs_ignored : ¬ ∀ (kw : Kwargs) (w : Wave), constantWaveform kw = .ok w → w.ellMax = kw.ellMax.getD 8 := by
  intro hk
  obtain ⟨w, h1, -, -, h2, -⟩ := constant_spec { ellMax := some 4 }
  have := hk _ _ h1
  rw [h2] at this
  simp at this

/-! ## Times -/

/-- C78: the times are `t_0`, `t_0 + dt`, ... up to the first that is not before `t_1`. -/
theorem times_spec (t0 t1 dt : ℝ) (hd : 0 < dt) (h : t0 ≤ t1) : ∃ n : Nat, (arange t0 (t1 + dt) dt).length = n + 1 ∧ (∀ k ≤ n, (arange t0 (t1 + dt) dt)[k]? = some (t0 + k * dt)) ∧
    t1 ≤ t0 + n * dt ∧ t0 + n * dt < t1 + dt ∧ ((∃ k : Nat, t1 = t0 + k * dt) → t1 = t0 + n * dt) := by
  have e : (t1 + dt - t0) / dt = (t1 - t0) / dt + 1 := by field_simp; ring
  have h0 : 0 ≤ (t1 - t0) / dt := div_nonneg (by linarith) hd.le
  have hc : (0 : ℤ) ≤ ⌈(t1 - t0) / dt⌉ := Int.ceil_nonneg h0
  have en : ⌈(t1 + dt - t0) / dt⌉ = ⌈(t1 - t0) / dt⌉ + 1 := by rw [e, Int.ceil_add_one]
  set n := ⌈(t1 - t0) / dt⌉.toNat with hn
  have hN : ((n : ℤ) : ℝ) = ⌈(t1 - t0) / dt⌉ := by rw [hn, Int.toNat_of_nonneg hc]
  have hN' : (n : ℝ) = ⌈(t1 - t0) / dt⌉ := by exact_mod_cast hN
  have b1 := Int.le_ceil ((t1 - t0) / dt)
  have b2 := Int.ceil_lt_add_one ((t1 - t0) / dt)
  rw [← hN'] at b1 b2
  rw [div_le_iff₀ hd] at b1
  have b2' : (n : ℝ) - 1 < (t1 - t0) / dt := by linarith
  rw [lt_div_iff₀ hd] at b2'
  refine ⟨n, ?_, fun k hk => ?_, by linarith, by linarith, ?_⟩
  · unfold arange
    rw [List.length_map, List.length_range, en]
    omega
  · unfold arange
    rw [List.getElem?_map, List.getElem?_range (by rw [en]; omega)]
    rfl
  · rintro ⟨k, hk⟩
    have : (t1 - t0) / dt = (k : ℤ) := by
      rw [hk]
      push_cast
      field_simp
      ring
    rw [this, Int.ceil_intCast] at hn
    have : n = k := by omega
    rw [this]
    exact hk

/-- C78: the times can go beyond `t_1`. -/
theorem times_beyond : ∃ t ∈ arange 0 (1 + 3 / 10) (3 / 10), 1 < t := by
  refine ⟨0 + (4 : Nat) * (3 / 10), ?_, by norm_num⟩
  unfold arange
  rw [List.mem_map]
  refine ⟨4, ?_, rfl⟩
  rw [List.mem_range]
  have : (4 : ℤ) < ⌈((1 : ℝ) + 3 / 10 - 0) / (3 / 10)⌉ := by rw [Int.lt_ceil]; norm_num
  omega

/-! ## Waveforms with one mode -/

/-- C78: the data type chosen for the spin weight `s` is `psi_(2-s)`, which has that spin weight. -/
theorem data_type_spec (s : Int) (h1 : -2 ≤ s) (h2 : s ≤ 2) : pyIndex SpinWeights s = .ok (3 - s) ∧ spinWeight (3 - s) = .ok s ∧ pyGet DataNames (3 - s) = .ok s!"Psi{2 - s}" := by
  have : s = -2 ∨ s = -1 ∨ s = 0 ∨ s = 1 ∨ s = 2 := by omega
  rcases this with rfl | rfl | rfl | rfl | rfl <;> exact ⟨rfl, rfl, rfl⟩

/-- The modes of the waveform at one time. -/
def modesAt (w : Wave) (i : Nat) : Int → Int → ℂ := fun ell m => w.data i (lmIndex ell m w.ellMin)

/-- What the arguments must satisfy for the mode to be one of the waveform. -/
structure Good (a : ModeArgs) (l n lo hi : Int) : Prop where
  spin : -2 ≤ a.s ∧ a.s ≤ 2
  ell : l = a.ell.getD |a.s|
  m : n = a.m.getD (-l)
  ellMin : lo = a.ellMin.getD |a.s|
  ellMax : hi = a.ellMax.getD 8
  nonneg : 0 ≤ lo
  low : lo ≤ l
  high : l ≤ hi
  ms : |n| ≤ l

/-- C78: the waveforms with one mode, at the given times, for all arguments for which the mode is one of the waveform. -/
theorem one_mode_spec (a : ModeArgs) (f : ℝ → ℂ) {ell m ellMin ellMax : Int} (g : Good a ell m ellMin ellMax) : ∃ w, oneMode a f = .ok w ∧ w.t = arange a.t0 (a.t1 + a.dt) a.dt ∧
    w.ellMin = ellMin ∧ w.ellMax = ellMax ∧ w.dataType = a.dataType.getD (3 - a.s) ∧ w.frame = [] ∧ w.frameType = 1 ∧
    ∀ i ell' m', ellMin ≤ ell' → ell' ≤ ellMax → |m'| ≤ ell' → modesAt w i ell' m' = if ell' = ell ∧ m' = m then f (w.t.getD i 0) else 0 := by
  have hc := onColumn_mode g.nonneg g.low g.high g.ms (fun _ _ => 0) fun i _ => f ((arange a.t0 (a.t1 + a.dt) a.dt).getD i 0)
  have hn : ¬ totalSize ellMin ellMax < 0 := by rw [totalSize_eq g.nonneg (g.low.trans g.high)]; omega
  refine ⟨{ t := arange a.t0 (a.t1 + a.dt) a.dt, frame := [], data := fun i => Row.set (fun _ => 0) (lmIndex ell m ellMin) (f ((arange a.t0 (a.t1 + a.dt) a.dt).getD i 0)), history := [], frameType := 1, dataType := a.dataType.getD (3 - a.s), rOut := true, mOut := true, ellMin := ellMin, ellMax := ellMax }, ?_, rfl, rfl, rfl, rfl, rfl, rfl, fun i ell' m' h1' h2' hm' => ?_⟩
  · unfold oneMode
    simp only [(data_type_spec a.s g.spin.1 g.spin.2).1, ok_bind, ← g.ell, ← g.m, ← g.ellMin, ← g.ellMax]
    rw [if_neg hn, hc]
    rfl
  · exact set_mode (a := ellMin) g.ms hm' (fun _ => 0) _

/-- C78: as a function on the sphere, it is the given function of time times the harmonic. -/
theorem one_mode_field (a : ModeArgs) (f : ℝ → ℂ) {ell m ellMin ellMax : Int} (g : Good a ell m ellMin ellMax) (i : Nat) (θ φ : ℝ) : ∃ w, oneMode a f = .ok w ∧
    field a.s ellMin ellMax (modesAt w i) θ φ = f (w.t.getD i 0) * Y a.s ell m (rotor θ φ) := by
  obtain ⟨w, h1, -, -, -, -, -, -, h2⟩ := one_mode_spec a f g
  refine ⟨w, h1, ?_⟩
  unfold field
  have hm := abs_le.1 g.ms
  rw [Finset.sum_eq_single ell, Finset.sum_eq_single m]
  · rw [h2 i ell m g.low g.high g.ms, if_pos ⟨rfl, rfl⟩]
  · intro m' hm' hne
    rw [Finset.mem_Icc, ← abs_le] at hm'
    rw [h2 i ell m' g.low g.high hm', if_neg (by tauto), zero_mul]
  · intro hx
    exact absurd (Finset.mem_Icc.2 hm) hx
  · intro ell' hl hne
    rw [Finset.mem_Icc] at hl
    refine Finset.sum_eq_zero fun m' hm' => ?_
    rw [Finset.mem_Icc, ← abs_le] at hm'
    rw [h2 i ell' m' hl.1 hl.2 hm', if_neg (by tauto), zero_mul]
  · intro hx
    exact absurd (Finset.mem_Icc.2 ⟨g.low, g.high⟩) hx

/-- C78: the two waveforms as functions on the sphere: `exp(i omega t)` and `beta t` times the harmonic; with complex `omega` the first is damped. -/
theorem rotation_time_spec (a : ModeArgs) (omega beta : ℂ) {ell m ellMin ellMax : Int} (g : Good a ell m ellMin ellMax) (i : Nat) (θ φ : ℝ) :
    (∃ w, singleModeRotation a omega = .ok w ∧ field a.s ellMin ellMax (modesAt w i) θ φ = Complex.exp (Complex.I * omega * (w.t.getD i 0 : ℝ)) * Y a.s ell m (rotor θ φ) ∧
      ‖modesAt w i ell m‖ = Real.exp (-omega.im * w.t.getD i 0)) ∧
    (∃ w, singleModeTime a beta = .ok w ∧ field a.s ellMin ellMax (modesAt w i) θ φ = beta * (w.t.getD i 0 : ℝ) * Y a.s ell m (rotor θ φ)) := by
  refine ⟨?_, one_mode_field a (fun t => beta * (t : ℝ)) g i θ φ⟩
  obtain ⟨w, h1, -, -, -, -, -, -, h2⟩ := one_mode_spec a (fun t => Complex.exp (Complex.I * omega * (t : ℝ))) g
  obtain ⟨w', h1', h3⟩ := one_mode_field a (fun t => Complex.exp (Complex.I * omega * (t : ℝ))) g i θ φ
  rw [h1] at h1'
  obtain rfl := Except.ok.inj h1'
  refine ⟨w, h1, h3, ?_⟩
  rw [h2 i ell m g.low g.high g.ms, if_pos ⟨rfl, rfl⟩, Complex.norm_exp]
  congr 1
  simp [Complex.mul_re, Complex.mul_im]

/-! ## Supertranslations -/

theorem fold_ells {a b : Int} (h0 : 0 ≤ a) (M : Int) (g : Int → ℂ) (L : List Int) (hn : L.Nodup) (hL : ∀ x ∈ L, a ≤ x ∧ x ≤ b) (data : Nat → Row ℂ) :
    ∃ d, L.foldlM (fun data ellp => if |M| ≤ ellp then onColumn (totalSize a b) data (lmIndex ellp M a) (fun _ x => x + g ellp) else .ok data) data = .ok d ∧
      ∀ i ell' m', a ≤ ell' → ell' ≤ b → |m'| ≤ ell' → d i (lmIndex ell' m' a) = data i (lmIndex ell' m' a) + if ell' ∈ L ∧ m' = M then g ell' else 0 := by
  induction L generalizing data with
  | nil => exact ⟨data, rfl, fun i ell' m' _ _ _ => by simp⟩
  | cons x L ih =>
    have hx := hL x (by simp)
    rw [List.nodup_cons] at hn
    by_cases hM : |M| ≤ x
    · obtain ⟨d, e, q⟩ := ih hn.2 (fun y hy => hL y (by simp [hy])) fun i => (data i).set (lmIndex x M a) (data i (lmIndex x M a) + g x)
      refine ⟨d, ?_, fun i ell' m' h1 h2 h3 => ?_⟩
      · rw [List.foldlM_cons, if_pos hM, onColumn_mode h0 hx.1 hx.2 hM]
        exact e
      · rw [q i ell' m' h1 h2 h3, set_mode hM h3]
        by_cases c : ell' = x ∧ m' = M
        · obtain ⟨rfl, rfl⟩ := c
          simp [hn.1]
        · rw [if_neg c]
          congr 1
          by_cases c' : ell' ∈ L ∧ m' = M
          · rw [if_pos c', if_pos ⟨by simp [c'.1], c'.2⟩]
          · rw [if_neg c', if_neg]
            rintro ⟨u, v⟩
            rw [List.mem_cons] at u
            tauto
    · obtain ⟨d, e, q⟩ := ih hn.2 (fun y hy => hL y (by simp [hy])) data
      refine ⟨d, ?_, fun i ell' m' h1 h2 h3 => ?_⟩
      · rw [List.foldlM_cons, if_neg hM]
        exact e
      · rw [q i ell' m' h1 h2 h3]
        congr 1
        by_cases c' : ell' ∈ L ∧ m' = M
        · rw [if_pos c', if_pos ⟨by simp [c'.1], c'.2⟩]
        · rw [if_neg c', if_neg]
          rintro ⟨u, v⟩
          rw [List.mem_cons] at u
          rcases u with rfl | u
          · exact hM (v ▸ h3)
          · exact c' ⟨u, v⟩

/-- What one mode of the supertranslation adds. -/
noncomputable def added (W : ThreeJ) (s ell m : Int) (beta c : ℂ) (p : Int × Int) (ell' m' : Int) : ℂ :=
  if m' = m + p.2 ∧ ell' ≤ ell + p.1 then addition W s ell m beta c p.1 p.2 ell' else 0

theorem addMode_spec (W : ThreeJ) (s ell m : Int) {a b : Int} (h0 : 0 ≤ a) (beta c : ℂ) (p : Int × Int) (data : Nat → Row ℂ) : ∃ d, addMode W s ell m a b beta c p data = .ok d ∧
    ∀ i ell' m', a ≤ ell' → ell' ≤ b → |m'| ≤ ell' → d i (lmIndex ell' m' a) = data i (lmIndex ell' m' a) + added W s ell m beta c p ell' m' := by
  unfold addMode added
  by_cases hc : c = 0
  · refine ⟨data, by rw [if_neg (not_not.2 hc)], fun i ell' m' _ _ _ => ?_⟩
    have : addition W s ell m beta c p.1 p.2 ell' = 0 := by unfold addition; simp [hc]
    rw [this, ite_self, add_zero]
  · obtain ⟨d, e, q⟩ := fold_ells (b := b) h0 (m + p.2) (fun ellp => addition W s ell m beta c p.1 p.2 ellp) (pyRange a (min b (ell + p.1) + 1)) (pyRange_nodup _ _)
      (fun x hx => by rw [mem_pyRange] at hx; omega) data
    refine ⟨d, by rw [if_pos hc]; exact e, fun i ell' m' h1 h2 h3 => ?_⟩
    rw [q i ell' m' h1 h2 h3]
    congr 1
    refine if_congr ?_ rfl rfl
    rw [mem_pyRange]
    constructor
    · rintro ⟨u, v⟩; exact ⟨v, by omega⟩
    · rintro ⟨u, v⟩; exact ⟨by omega, u⟩

theorem addAll_spec (W : ThreeJ) (s ell m : Int) {a b : Int} (h0 : 0 ≤ a) (beta : ℂ) (l : List ((Int × Int) × ℂ)) (data : Nat → Row ℂ) :
    ∃ d, l.foldlM (fun data p => addMode W s ell m a b beta p.2 p.1 data) data = .ok d ∧
      ∀ i ell' m', a ≤ ell' → ell' ≤ b → |m'| ≤ ell' → d i (lmIndex ell' m' a) = data i (lmIndex ell' m' a) + (l.map fun p => added W s ell m beta p.2 p.1 ell' m').sum := by
  induction l generalizing data with
  | nil => exact ⟨data, rfl, fun i ell' m' _ _ _ => by simp⟩
  | cons x l ih =>
    obtain ⟨d1, e1, q1⟩ := addMode_spec W s ell m (b := b) h0 beta x.2 x.1 data
    obtain ⟨d, e, q⟩ := ih d1
    refine ⟨d, ?_, fun i ell' m' h1 h2 h3 => ?_⟩
    · rw [List.foldlM_cons, e1]
      exact e
    · rw [q i ell' m' h1 h2 h3, q1 i ell' m' h1 h2 h3, List.map_cons, List.sum_cons]
      ring

/-! ## Integrals of three harmonics -/

theorem Y_form {s l m : Int} (hs : |s| ≤ l) (hm : |m| ≤ l) (θ : ℝ) : ∃ c : ℂ, ∀ φ : ℝ, Y s l m (rotor θ φ) = c * Complex.exp (m * φ * Complex.I) :=
  ⟨_, fun φ => by rw [Verif.GridMultiply.Y_rotor hs (abs_le.1 hm).1 (abs_le.1 hm).2, mul_right_comm]⟩

/-- The integral vanishes if the orders do not add up. -/
theorem select (s j n l q ell m : Int) (hn : |n| ≤ j) (hq : |q| ≤ l) (hm : |m| ≤ ell) (h : n ≠ m + q) :
    solid (fun θ φ => conj (Y s j n (rotor θ φ)) * (Y 0 l q (rotor θ φ) * Y s ell m (rotor θ φ))) = 0 := by
  by_cases hs : |s| ≤ j ∧ |s| ≤ ell
  swap
  · have : (fun θ φ => conj (Y s j n (rotor θ φ)) * (Y 0 l q (rotor θ φ) * Y s ell m (rotor θ φ))) = fun _ _ => 0 := by
      funext θ φ
      rcases not_and_or.1 hs with h | h
      · rw [Verif.SphereDeriv.Y_zero h, map_zero, zero_mul]
      · rw [Verif.SphereDeriv.Y_zero (l := ell) h, mul_zero, mul_zero]
    rw [this]
    simp [solid]
  have hl : |(0 : Int)| ≤ l := by rw [abs_zero]; exact (abs_nonneg q).trans hq
  unfold solid
  have : ∀ θ : ℝ, ∫ φ in (0 : ℝ)..(2 * Real.pi), conj (Y s j n (rotor θ φ)) * (Y 0 l q (rotor θ φ) * Y s ell m (rotor θ φ)) * (Real.sin θ : ℝ) = 0 := by
    intro θ
    have e : ∃ c : ℂ, ∀ φ : ℝ, conj (Y s j n (rotor θ φ)) * (Y 0 l q (rotor θ φ) * Y s ell m (rotor θ φ)) * (Real.sin θ : ℝ) = c * Complex.exp ((m + q - n : Int) * φ * Complex.I) := by
      obtain ⟨c1, e1⟩ := Y_form hs.1 hn θ
      obtain ⟨c2, e2⟩ := Y_form hl hq θ
      obtain ⟨c3, e3⟩ := Y_form hs.2 hm θ
      refine ⟨conj c1 * c2 * c3 * (Real.sin θ : ℝ), fun φ => ?_⟩
      have ee : Complex.exp ((m + q - n : Int) * φ * Complex.I) = conj (Complex.exp (n * φ * Complex.I)) * (Complex.exp (q * φ * Complex.I) * Complex.exp (m * φ * Complex.I)) := by
        rw [← Complex.exp_conj, ← Complex.exp_add, ← Complex.exp_add]
        congr 1
        simp only [map_mul, Complex.conj_I, Complex.conj_ofReal, map_intCast]
        push_cast
        ring
      rw [e1, e2, e3, ee, map_mul]
      ring
    obtain ⟨c, hc⟩ := e
    simp only [hc]
    rw [intervalIntegral.integral_const_mul, Verif.Sphere.azimuth, if_neg (by omega)]
    simp
  simp only [this]
  simp

theorem sign_eq (k : Int) (x : ℂ) : (if k % 2 = 1 then -x else x) = (-1) ^ k.natAbs * x := by
  by_cases h : k % 2 = 1
  · rw [if_pos h, Odd.neg_one_pow (by rw [Int.natAbs_odd, Int.odd_iff]; exact h), neg_one_mul]
  · rw [if_neg h, Even.neg_one_pow (by rw [Int.natAbs_even, Int.even_iff]; omega), one_mul]

/-- What one mode of the supertranslation adds is the mode of the product of harmonics. -/
theorem added_eq {W : ThreeJ} {s ell m L a b : Int} (hW : IsThreeJ W s ell m L a b) (hm : |m| ≤ ell) (beta c : ℂ) {l n j k : Int} (hl : 0 ≤ l) (hL : l ≤ L) (hn : |n| ≤ l) (ha : a ≤ j) (hb : j ≤ b) (hk : |k| ≤ j) :
    added W s ell m beta c (l, n) j k = beta * (c * solid fun θ φ => conj (Y s j k (rotor θ φ)) * (Y 0 l n (rotor θ φ) * Y s ell m (rotor θ φ))) := by
  unfold added
  dsimp only
  by_cases e : k = m + n
  · subst e
    rw [hW.integral l n j hl hL hn ha hb hk]
    by_cases h : j ≤ ell + l
    · rw [if_pos ⟨rfl, h⟩]
      unfold addition
      dsimp only
      rw [sign_eq, show s + (m + n) = s + m + n by ring]
      ring
    · rw [if_neg (by tauto), hW.triangle l n j hl hL hn ha hb (by omega)]
      simp
  · rw [if_neg (by tauto), select s j k l n ell m hk hn hm e]
    ring

/-- The modes of the supertranslation in the list. -/
noncomputable def alpha (l : List ℂ) : Int → Int → ℂ := fun ell m => l.getD (lmIndex ell m 0).toNat 0

theorem superArg_length {super : List ℂ} {space : Option (ℝ × ℝ × ℝ)} {l : List ℂ} {L : Int} (h : superArg super space = .ok (l, L)) : -1 ≤ L ∧ (l.length : Int) = (L + 1) ^ 2 := by
  have key : ∀ q : List ℂ, (if ((Nat.sqrt q.length : Int) - 1) * ((Nat.sqrt q.length : Int) - 1 + 2) + 1 ≠ q.length then (.error .valueError : Py (List ℂ × Int)) else .ok (q, (Nat.sqrt q.length : Int) - 1)) = .ok (l, L) →
      -1 ≤ L ∧ (l.length : Int) = (L + 1) ^ 2 := by
    intro q h
    by_cases hc : ((Nat.sqrt q.length : Int) - 1) * ((Nat.sqrt q.length : Int) - 1 + 2) + 1 ≠ q.length
    · rw [if_pos hc] at h
      cases h
    · rw [if_neg hc] at h
      rw [not_not] at hc
      have := Except.ok.inj h
      rw [Prod.mk.injEq] at this
      obtain ⟨rfl, e2⟩ := this
      rw [e2] at hc
      refine ⟨by omega, ?_⟩
      rw [← hc]
      ring
  cases space <;> exact key _ h

theorem zip_eq {l : List ℂ} {L : Int} (h1 : -1 ≤ L) (h2 : (l.length : Int) = (L + 1) ^ 2) : (LMRange 0 L).zip l = (LMRange 0 L).map fun p => (p, alpha l p.1 p.2) := by
  have hlen : (LMRange 0 L).length = l.length := by
    have := Verif.Props.Modes.LM_length 0 L le_rfl (by omega)
    have e : ((LMRange 0 L).length : Int) = (l.length : Int) := by rw [this, h2]; ring
    exact_mod_cast e
  apply List.ext_getElem
  · rw [List.length_zip, List.length_map]
    omega
  · intro i h1 h2
    rw [List.length_map] at h2
    rw [List.getElem_zip, List.getElem_map]
    have := Verif.Props.Modes.index_LM 0 L le_rfl i ((LMRange 0 L)[i]).1 ((LMRange 0 L)[i]).2 (List.getElem?_eq_getElem h2)
    unfold alpha
    rw [this, Int.toNat_natCast, List.getD_eq_getElem _ _ (by omega)]

theorem harmonic_mode {s ell m j k : Int} (hs : |s| ≤ ell) (hm : |m| ≤ ell) (hk : |k| ≤ j) (x : ℂ) :
    (if j = ell ∧ k = m then x else 0) = x * solid fun θ φ => conj (Y s j k (rotor θ φ)) * Y s ell m (rotor θ φ) := by
  by_cases h : |s| ≤ j
  · rw [Verif.Props.FluxIntegral.harmonics_orthonormal s j k ell m h (abs_le.1 hk).1 (abs_le.1 hk).2 (abs_le.1 hm).1 (abs_le.1 hm).2]
    split <;> simp
  · have : (fun θ φ => conj (Y s j k (rotor θ φ)) * Y s ell m (rotor θ φ)) = fun _ _ => 0 := by
      funext θ φ
      rw [Verif.SphereDeriv.Y_zero h, map_zero, zero_mul]
    rw [this, if_neg (by rintro ⟨rfl, -⟩; exact h hs)]
    simp [solid]

/-- C78: the modes of the supertranslated waveform are those of `beta` times the harmonic times the sum of the time and the supertranslation. -/
theorem supertranslated_spec (W : ThreeJ) (a : ModeArgs) (beta : ℂ) (super : List ℂ) (space : Option (ℝ × ℝ × ℝ)) {ell m ellMin ellMax L : Int} {l : List ℂ}
    (g : Good a ell m ellMin ellMax) (hs : |a.s| ≤ ell) (hl : superArg super space = .ok (l, L)) (hW : IsThreeJ W a.s ell m L ellMin ellMax) :
    ∃ w, supertranslated W a beta super space = .ok w ∧ w.t = arange a.t0 (a.t1 + a.dt) a.dt ∧ w.ellMin = ellMin ∧ w.ellMax = ellMax ∧ w.dataType = a.dataType.getD (3 - a.s) ∧
      ∀ i ell' m', ellMin ≤ ell' → ell' ≤ ellMax → |m'| ≤ ell' →
        modesAt w i ell' m' = solid fun θ φ => conj (Y a.s ell' m' (rotor θ φ)) * (beta * ((w.t.getD i 0 : ℝ) + field 0 0 L (alpha l) θ φ) * Y a.s ell m (rotor θ φ)) := by
  obtain ⟨w, e1, e2, e3, e4, e5, -, -, e6⟩ := one_mode_spec a (fun t => beta * (t : ℝ)) g
  obtain ⟨d, q1, q2⟩ := addAll_spec W a.s ell m (b := ellMax) g.nonneg beta ((LMRange 0 L).zip l) w.data
  obtain ⟨hL, hlen⟩ := superArg_length hl
  refine ⟨{ w with data := d }, ?_, e2, e3, e4, e5, fun i ell' m' h1 h2 h3 => ?_⟩
  · unfold supertranslated singleModeTime
    simp only [e1, ok_bind, hl, ← g.ell, ← g.m, e3, e4, q1]
    rfl
  have em := e6 i ell' m' h1 h2 h3
  unfold modesAt at em ⊢
  dsimp only
  rw [e3] at em ⊢
  rw [q2 i ell' m' h1 h2 h3, em, zip_eq hL hlen, List.map_map]
  have es : ((LMRange 0 L).map ((fun p : (Int × Int) × ℂ => added W a.s ell m beta p.2 p.1 ell' m') ∘ fun p => (p, alpha l p.1 p.2))).sum =
      ∑ x ∈ Finset.Icc 0 L, ∑ y ∈ Finset.Icc (-x) x, added W a.s ell m beta (alpha l x y) (x, y) ell' m' :=
    Verif.ModeCalc.sum_LMRange 0 L fun x y => added W a.s ell m beta (alpha l x y) (x, y) ell' m'
  rw [es, harmonic_mode hs g.ms h3]
  have cY := (Y_C a.s ell' m' (abs_le.1 h3).1 (abs_le.1 h3).2).conj
  have cE := Y_C a.s ell m (abs_le.1 g.ms).1 (abs_le.1 g.ms).2
  have split : (fun θ φ => conj (Y a.s ell' m' (rotor θ φ)) * (beta * ((w.t.getD i 0 : ℝ) + field 0 0 L (alpha l) θ φ) * Y a.s ell m (rotor θ φ))) =
      fun θ φ => beta * (w.t.getD i 0 : ℝ) * (conj (Y a.s ell' m' (rotor θ φ)) * Y a.s ell m (rotor θ φ)) +
        ∑ x ∈ Finset.Icc 0 L, ∑ y ∈ Finset.Icc (-x) x, beta * alpha l x y * (conj (Y a.s ell' m' (rotor θ φ)) * (Y 0 x y (rotor θ φ) * Y a.s ell m (rotor θ φ))) := by
    funext θ φ
    unfold field
    rw [show ∀ u v w' x y : ℂ, u * (v * (w' + x) * y) = v * w' * (u * y) + x * (v * u * y) by intros; ring, Finset.sum_mul]
    congr 1
    refine Finset.sum_congr rfl fun x _ => ?_
    rw [Finset.sum_mul]
    refine Finset.sum_congr rfl fun y _ => ?_
    ring
  have ct : ∀ x ∈ Finset.Icc 0 L, ∀ y ∈ Finset.Icc (-x) x, C fun θ φ => beta * alpha l x y * (conj (Y a.s ell' m' (rotor θ φ)) * (Y 0 x y (rotor θ φ) * Y a.s ell m (rotor θ φ))) := by
    intro x _ y hy
    rw [Finset.mem_Icc] at hy
    exact (cY.mul ((Y_C 0 x y hy.1 hy.2).mul cE)).const _
  rw [split, solid_add ((cY.mul cE).const _) (C.sum fun x hx => C.sum fun y hy => ct x hx y hy), solid_const, solid_sum _ _ (fun x hx => C.sum fun y hy => ct x hx y hy)]
  congr 1
  refine Finset.sum_congr rfl fun x hx => ?_
  rw [solid_sum _ _ (fun y hy => ct x hx y hy)]
  refine Finset.sum_congr rfl fun y hy => ?_
  rw [Finset.mem_Icc] at hx
  rw [Finset.mem_Icc, ← abs_le] at hy
  rw [added_eq hW g.ms beta _ hx.1 hx.2 hy h1 h2 h3, solid_const, mul_assoc]

/-! ## The 3-j symbols for translations -/

/-- The 3-j symbols `(l ell j; n m -(m+n))` for `l` at most 1. -/
noncomputable def threeJ1 (l ell j n m _k : Int) : ℝ :=
  if l = 0 then if j = ell then (-1) ^ (ell + m).natAbs / √(2 * ell + 1) else 0
  else (-1) ^ (j + m + n).natAbs * Verif.Flux.cg ell m n j / √(2 * j + 1)

theorem sq_sign (a b c : Int) (h : (a + b + c) % 2 = 0) : ((-1 : ℝ)) ^ a.natAbs * (-1) ^ b.natAbs * (-1) ^ c.natAbs = 1 := by
  rw [← pow_add, ← pow_add]
  apply Even.neg_one_pow
  rw [Nat.even_iff]
  omega

theorem solid_congr' {F G : ℝ → ℝ → ℂ} (h : ∀ θ φ, F θ φ = G θ φ) : solid F = solid G := by
  rw [show F = G from funext fun θ => funext fun φ => h θ φ]

/-- C78: up to `l = 1`, there are such symbols: the standard ones. -/
theorem threeJ1_spec {s ell m a b : Int} (ha : 0 ≤ a) (hs : |s| ≤ ell) (hm : |m| ≤ ell) : IsThreeJ threeJ1 s ell m 1 a b := by
  have hell : 0 ≤ ell := (abs_nonneg s).trans hs
  have hR : (0 : ℝ) < 2 * ell + 1 := by exact_mod_cast (by omega : 0 < 2 * ell + 1)
  refine ⟨fun l n j hl hL hn h1 h2 ht => ?_, fun l n j hl hL hn h1 h2 hk => ?_⟩
  · unfold threeJ1
    by_cases h0 : l = 0
    · rw [if_pos h0, if_neg (by omega)]
    · rw [if_neg h0]
      have : Verif.Flux.cg ell m n j = 0 := by
        unfold Verif.Flux.cg
        simp only
        rw [if_neg (show ¬ j = ell + 1 by omega), if_neg (show ¬ j = ell by omega), if_neg (show ¬ j = ell - 1 by omega), ite_self]
      rw [this]
      simp
  · have hj : (0 : ℝ) < 2 * j + 1 := by exact_mod_cast (by omega : 0 < 2 * j + 1)
    have h01 : l = 0 ∨ l = 1 := by omega
    rcases h01 with rfl | rfl
    · have hn0 : n = 0 := by rw [← abs_eq_zero]; exact le_antisymm hn (abs_nonneg n)
      subst hn0
      rw [solid_congr' (G := fun θ φ => ((1 / √(4 * Real.pi) : ℝ) : ℂ) * (conj (Y s j (m + 0) (rotor θ φ)) * Y s ell m (rotor θ φ))) (fun θ φ => by rw [Verif.Sphere.Y000]; ring), solid_const]
      have := harmonic_mode (j := j) (k := m) hs hm (by simpa using hk) ((1 / √(4 * Real.pi) : ℝ) : ℂ)
      rw [add_zero, ← this]
      unfold threeJ1
      rw [if_pos rfl, if_pos rfl]
      by_cases e : j = ell
      · subst e
        simp only [if_true, and_self]
        have q := sq_sign (s + m) (j + -s) (j + m) (by omega)
        have r : √((2 * (0 : Int) + 1) * (2 * (j : ℝ) + 1) * (2 * j + 1) / (4 * Real.pi)) = (2 * (j : ℝ) + 1) / √(4 * Real.pi) := by
          rw [Int.cast_zero, show (2 * (0 : ℝ) + 1) * (2 * (j : ℝ) + 1) * (2 * j + 1) = (2 * (j : ℝ) + 1) ^ 2 by ring, Real.sqrt_div (sq_nonneg _), Real.sqrt_sq hR.le]
        have fin : (-1 : ℝ) ^ (s + m).natAbs * ((2 * (j : ℝ) + 1) / √(4 * Real.pi)) * ((-1) ^ (j + -s).natAbs / √(2 * j + 1)) * ((-1) ^ (j + m).natAbs / √(2 * j + 1)) = 1 / √(4 * Real.pi) := by
          have e2 : √(2 * (j : ℝ) + 1) * √(2 * j + 1) = 2 * j + 1 := Real.mul_self_sqrt hR.le
          have e3 : √(2 * (j : ℝ) + 1) ≠ 0 := (Real.sqrt_pos.2 hR).ne'
          have e4 : √(4 * Real.pi) ≠ 0 := (Real.sqrt_pos.2 (by positivity)).ne'
          calc _ = ((-1 : ℝ) ^ (s + m).natAbs * (-1) ^ (j + -s).natAbs * (-1) ^ (j + m).natAbs) * ((2 * j + 1) / (√(2 * (j : ℝ) + 1) * √(2 * j + 1))) / √(4 * Real.pi) := by field_simp
            _ = _ := by rw [q, e2, div_self hR.ne', one_mul]
        rw [r, ← fin, add_zero]
        push_cast
        ring
      · rw [if_neg e, if_neg (by tauto)]
        simp
    · have hn1 : n = 1 ∨ n = 0 ∨ n = -1 := by rw [abs_le] at hn; omega
      have tr := Verif.Sphere.triple s j (m + n) 0 s ell m n (by ring) (abs_le.1 hk).1 (abs_le.1 hk).2 hell (abs_le.1 hm).1 (abs_le.1 hm).2 hn1 (by simp)
      rw [if_pos rfl] at tr
      have tr' : solid (fun θ φ => conj (Y s j (m + n) (rotor θ φ)) * (Y 0 1 n (rotor θ φ) * Y s ell m (rotor θ φ))) = _ := tr
      rw [tr']
      unfold threeJ1 Verif.Wigner.gaunt
      rw [if_neg (by decide), if_neg (by decide), neg_zero, add_zero]
      have q := sq_sign (s + m + n) (j + -s) (j + m + n) (by omega)
      generalize Verif.Flux.cg ell m n j = x
      generalize Verif.Flux.cg ell (-s) 0 j = y
      have e2 : √(2 * (j : ℝ) + 1) * √(2 * j + 1) = 2 * j + 1 := Real.mul_self_sqrt hj.le
      have e3 : √(2 * (j : ℝ) + 1) ≠ 0 := (Real.sqrt_pos.2 hj).ne'
      have r : √((2 * (1 : Int) + 1) * (2 * (ell : ℝ) + 1) * (2 * j + 1) / (4 * Real.pi)) = √(3 * (2 * ell + 1) / (4 * Real.pi * (2 * j + 1))) * (2 * j + 1) := by
        rw [show (2 * ((1 : Int) : ℝ) + 1) * (2 * (ell : ℝ) + 1) * (2 * j + 1) / (4 * Real.pi) = 3 * (2 * ell + 1) / (4 * Real.pi * (2 * j + 1)) * (2 * j + 1) ^ 2 by push_cast; field_simp; norm_num,
          Real.sqrt_mul (by positivity), Real.sqrt_sq hj.le]
      rw [r]
      generalize √(3 * (2 * (ell : ℝ) + 1) / (4 * Real.pi * (2 * j + 1))) = z
      have fin : z * x * y = (-1 : ℝ) ^ (s + m + n).natAbs * (z * (2 * j + 1)) * ((-1) ^ (j + -s).natAbs * y / √(2 * j + 1)) * ((-1) ^ (j + m + n).natAbs * x / √(2 * j + 1)) := by
        calc _ = ((-1 : ℝ) ^ (s + m + n).natAbs * (-1) ^ (j + -s).natAbs * (-1) ^ (j + m + n).natAbs) * ((2 * j + 1) / (√(2 * (j : ℝ) + 1) * √(2 * j + 1))) * (z * x * y) := by
              rw [q, e2, div_self hj.ne', one_mul, one_mul]
          _ = _ := by field_simp
      rw [fin]
      push_cast
      ring

/-! ## Translations -/

theorem superArg_space (super : List ℂ) (h : super.length ≤ 4) (x y z : ℝ) :
    superArg super (some (x, y, z)) = .ok ([super.getD 0 0, -(TransformKwargs.vectorAs x y z).1, -(TransformKwargs.vectorAs x y z).2.1, -(TransformKwargs.vectorAs x y z).2.2], 1) := by
  have hs : Nat.sqrt 4 = 2 := Nat.sqrt_eq 2
  match super, h with
  | [], _ => unfold superArg; simp [List.replicate, List.set, hs]
  | [a], _ => unfold superArg; simp [List.replicate, List.set, hs]
  | [a, b], _ => unfold superArg; simp [List.replicate, List.set, hs]
  | [a, b, c], _ => unfold superArg; simp [List.replicate, List.set, hs]
  | [a, b, c, d], _ => unfold superArg; simp [List.set, hs]
  | a :: b :: c :: d :: e :: l, h => simp at h; omega

/-- The supertranslation of a translation in time and space. -/
theorem translation_field (c : ℂ) (x y z θ φ : ℝ) : field 0 0 1 (alpha [c, -(TransformKwargs.vectorAs x y z).1, -(TransformKwargs.vectorAs x y z).2.1, -(TransformKwargs.vectorAs x y z).2.2]) θ φ =
    c / (√(4 * Real.pi) : ℝ) - ((x * nHat 0 θ φ + y * nHat 1 θ φ + z * nHat 2 θ φ : ℝ) : ℂ) := by
  have c0 := Verif.Props.BoostFlux.chi_field 0 θ φ
  have c1 := Verif.Props.BoostFlux.chi_field 1 θ φ
  have c2 := Verif.Props.BoostFlux.chi_field 2 θ φ
  push_cast
  rw [← c0, ← c1, ← c2]
  unfold field
  have i1 : Finset.Icc (-1 : Int) 1 = {-1, 0, 1} := by decide
  have i0 : Finset.Icc (0 : Int) 1 = {0, 1} := by decide
  have i11 : Finset.Icc (1 : Int) 1 = {1} := by decide
  have i00 : Finset.Icc (-0 : Int) 0 = {0} := by decide
  have xy : (⟨x, y⟩ : ℂ) = x + y * Complex.I := by apply Complex.ext <;> simp
  have xy' : (⟨-x, y⟩ : ℂ) = -x + y * Complex.I := by apply Complex.ext <;> simp
  rw [i0, i11, Finset.sum_pair (by decide), Finset.sum_singleton, Finset.sum_singleton, Finset.sum_singleton, i00, i1, Finset.sum_singleton]
  have tri : ∀ f : Int → ℂ, ∑ m ∈ ({-1, 0, 1} : Finset Int), f m = f (-1) + (f 0 + f 1) := fun f => by rw [Finset.sum_insert (by decide), Finset.sum_pair (by decide)]
  simp only [tri]
  have a0 : ∀ a b c d : ℂ, alpha [a, b, c, d] 0 0 = a := fun _ _ _ _ => rfl
  have a1 : ∀ a b c d : ℂ, alpha [a, b, c, d] 1 (-1) = b := fun _ _ _ _ => rfl
  have a2 : ∀ a b c d : ℂ, alpha [a, b, c, d] 1 0 = c := fun _ _ _ _ => rfl
  have a3 : ∀ a b c d : ℂ, alpha [a, b, c, d] 1 1 = d := fun _ _ _ _ => rfl
  rw [a0, a1, a2, a3, Verif.Sphere.Y000]
  unfold TransformKwargs.vectorAs
  rw [xy, xy']
  have f1 : (1 : Fin 3) ≠ 0 := by decide
  have f2 : (2 : Fin 3) ≠ 0 := by decide
  have f3 : (2 : Fin 3) ≠ 1 := by decide
  simp only [Verif.Spec.Boost.chi, f1, f2, f3, if_true, if_false, ne_eq, not_true_eq_false, or_true, true_or, show ¬ ((-1 : Int) = 1) by decide, show ¬ ((0 : Int) = 1) by decide, show ¬ ((0 : Int) = -1) by decide, show ¬ ((1 : Int) = 0) by decide, show ¬ ((-1 : Int) = 0) by decide, or_self]
  push_cast
  ring

/-- C78: the waveform translated by a vector, with the standard 3-j symbols: the time `t` is replaced by `t` minus the component of the vector along the direction. -/
theorem translated_spec (a : ModeArgs) (beta : ℂ) (x y z : ℝ) {ell m ellMin ellMax : Int} (g : Good a ell m ellMin ellMax) (hs : |a.s| ≤ ell) :
    ∃ w, supertranslated threeJ1 a beta [] (some (x, y, z)) = .ok w ∧ w.t = arange a.t0 (a.t1 + a.dt) a.dt ∧ w.ellMin = ellMin ∧ w.ellMax = ellMax ∧
      ∀ i ell' m', ellMin ≤ ell' → ell' ≤ ellMax → |m'| ≤ ell' →
        modesAt w i ell' m' = solid fun θ φ => conj (Y a.s ell' m' (rotor θ φ)) * (beta * ((w.t.getD i 0 - (x * nHat 0 θ φ + y * nHat 1 θ φ + z * nHat 2 θ φ) : ℝ) : ℂ) * Y a.s ell m (rotor θ φ)) := by
  obtain ⟨w, h1, h2, h3, h4, -, h5⟩ := supertranslated_spec threeJ1 a beta [] (some (x, y, z)) g hs (superArg_space [] (by simp) x y z) (threeJ1_spec g.nonneg hs g.ms)
  refine ⟨w, h1, h2, h3, h4, fun i ell' m' q1 q2 q3 => ?_⟩
  rw [h5 i ell' m' q1 q2 q3]
  refine solid_congr' fun θ φ => ?_
  rw [translation_field]
  push_cast [List.getD]
  simp only [List.getElem?_cons_zero, List.getElem?_nil, Option.getD_none]
  ring

/-- C78: without arguments nothing is translated, although the documentation gives `[1, 0, 0]` as the default of `space_translation`. -/
theorem no_translation (W : ThreeJ) (a : ModeArgs) (beta : ℂ) {w : Wave} (h : singleModeTime a beta = .ok w) : supertranslated W a beta [] none = .ok w := by
  unfold supertranslated
  rw [h]
  rfl

/-! ## The mode below `ell_min` -/

/-- C78: a mode with `ell < ell_min` is not refused: the data are put in another mode. -/
theorem below_wrong (f : ℝ → ℂ) : ∃ w, oneMode { s := -2, ell := some 2, m := some 2, ellMin := some 3, ellMax := some 3 } f = .ok w ∧ w.ellMin = 3 ∧ w.ellMax = 3 ∧
    ∀ i, modesAt w i 3 3 = f (w.t.getD i 0) := by
  refine ⟨_, rfl, rfl, rfl, fun i => rfl⟩

/-! ## Finite radii -/

/-- What the documentation says of the data at the radius `R`: `h_0 + h_1/R + … + h_n/R^n`, with `h_k` the amplitude times a sinusoid times the absolute value of `h_0`. -/
noncomputable def documented (amp : ℝ) (e : Nat → ℂ) (nSub : Nat) (R : ℝ) (x : ℂ) : ℂ :=
  x + ∑ k ∈ Finset.Icc 1 nSub, amp * e k * (‖x‖ : ℝ) * ((R ^ k)⁻¹ : ℝ)

/-- C78, partial: with one term, the values at the first radius are the documented ones. -/
theorem first_radius_partial (amp : ℝ) (e : Nat → ℂ) (R : ℝ) (l : List ℝ) (x : ℂ) : (fakeValues amp e 1 (R :: l) x).head? = some (documented amp e 1 R x) := by
  simp [fakeValues, addTerms, documented, List.range_succ]
  ring

/-- C78: already with one term, the values at the second radius are not those documented: they contain the term of the first radius. -/
theorem second_radius_wrong : fakeValues 1 (fun _ => 1) 1 [1, 2] 1 = [2, 3] ∧ documented 1 (fun _ => 1) 1 2 1 = 3 / 2 := by
  constructor
  · simp [fakeValues, addTerms, List.range_succ]
    norm_num
  · simp [documented]
    norm_num

/-- C78: the values at a radius depend on the radii before it. -/
theorem radii_dependent : (fakeValues 1 (fun _ => 1) 1 [1, 2] 1)[1]? ≠ (fakeValues 1 (fun _ => 1) 1 [2, 2] 1)[1]? := by
  simp [fakeValues, addTerms, List.range_succ]
  norm_num

/-- C78: with two terms, not even the values at the first radius are of the documented form, because the absolute value is that of the sum so far. -/
theorem two_terms_wrong : fakeValues 1 (fun _ => 1) 2 [1] 1 = [4] ∧ documented 1 (fun _ => 1) 2 1 1 = 3 := by
  constructor
  · simp [fakeValues, addTerms, List.range_succ]
    norm_num
  · simp [documented, Finset.sum_Icc_succ_top]
    norm_num

/-- C78: the mass ratio given is not used; it is always 2, and the documented default is 1. -/
theorem mass_ratio_ignored (a : FakeArgs) (q : ℝ) : precArgs { a with massRatio := q } = precArgs a ∧ (precArgs a).massRatio = 2 := ⟨rfl, rfl⟩

/-! ## Examples -/

/-- The default arguments are good. -/
theorem good_default : Good {} 2 (-2) 2 8 := by
  constructor <;> simp

example (beta : ℂ) : ∃ w, supertranslated threeJ1 {} beta [] (some (1, 0, 0)) = .ok w := by
  obtain ⟨w, h, -⟩ := translated_spec {} beta 1 0 0 good_default (by simp)
  exact ⟨w, h⟩

end Verif.Props.Samples
