import Verif.Model.RandomSamples
import Verif.Props.Samples
import Verif.Props.AbdTransform

/-!
# C98: the random sample waveforms
-/

namespace Verif.Props.RandomSamples
open Verif Verif.Modes Verif.Samples Verif.RandomSamples Verif.AbdTransform
open Verif.Props.Samples (modesAt)

/-- The generator draws uniform numbers from `[0, 1)`. -/
def Unit01 (S : Source) : Prop := ∀ s k, 0 ≤ S.uniform s k ∧ S.uniform s k < 1

/-- The times are random: `n` of them, in increasing order, between `begin` and `end`. -/
theorem random_times {S : Source} (hS : Unit01 S) (kw : Kw) (hu : kw.uniformTime.getD false = false) (hn : 0 ≤ kw.nTimes.getD 1101) (hb : kw.begin_.getD (-10) < kw.end_.getD 100) (g : Rng) :
    ∃ t, times S kw g = .ok (t, { g with pos := g.pos + (kw.nTimes.getD 1101).toNat }) ∧ (t.length : Int) = kw.nTimes.getD 1101 ∧ t.Pairwise (· ≤ ·) ∧
      (∀ x ∈ t, kw.begin_.getD (-10) ≤ x ∧ x < kw.end_.getD 100) ∧
      ((∀ i j, i < j → j < (kw.nTimes.getD 1101).toNat → S.uniform g.seed (g.pos + i) ≠ S.uniform g.seed (g.pos + j)) → t.Pairwise (· < ·)) := by
  obtain ⟨a, ha⟩ : ∃ a, a = kw.begin_.getD (-10) := ⟨_, rfl⟩
  obtain ⟨b, hb'⟩ : ∃ b, b = kw.end_.getD 100 := ⟨_, rfl⟩
  obtain ⟨n, hn'⟩ : ∃ n : Nat, kw.nTimes.getD 1101 = n := Int.eq_ofNat_of_zero_le hn
  refine ⟨sorted (uniforms S a b n g).1, ?_, ?_, ?_, ?_, ?_⟩
  · unfold times
    simp only [hn', hu, ← ha, ← hb', Int.toNat_natCast]
    rw [if_neg (by omega)]
    rfl
  · rw [hn']
    simp [sorted, uniforms]
  · exact List.pairwise_insertionSort _ _
  · intro x hx
    have hx' : x ∈ (uniforms S a b n g).1 := (List.perm_insertionSort _ _).mem_iff.mp hx
    unfold uniforms at hx'
    rw [List.mem_map] at hx'
    obtain ⟨k, -, rfl⟩ := hx'
    obtain ⟨h0, h1⟩ := hS g.seed (g.pos + k)
    rw [← ha, ← hb'] at hb ⊢
    constructor <;> nlinarith
  · intro hd
    rw [hn', Int.toNat_natCast] at hd
    have hnd : (uniforms S a b n g).1.Nodup := by
      unfold uniforms
      refine List.Nodup.map_on ?_ List.nodup_range
      intro i hi j hj e
      rw [List.mem_range] at hi hj
      rw [← ha, ← hb'] at hb
      have e' : S.uniform g.seed (g.pos + i) = S.uniform g.seed (g.pos + j) := mul_left_cancel₀ (sub_ne_zero.mpr hb.ne') (add_left_cancel e)
      rcases lt_trichotomy i j with h | h | h
      · exact absurd e' (hd i j h hj)
      · exact h
      · exact absurd e'.symm (hd j i h hi)
    have h1 : (sorted (uniforms S a b n g).1).Pairwise (· ≤ ·) := List.pairwise_insertionSort _ _
    have h2 : (sorted (uniforms S a b n g).1).Nodup := (List.perm_insertionSort _ _).nodup_iff.mpr hnd
    exact (h1.and h2).imp fun h => lt_of_le_of_ne h.1 h.2

/-- With `uniform_time` the times are equally spaced from `begin` to `end`, unless `t` is given. -/
theorem uniform_times {S : Source} (kw : Kw) (hu : kw.uniformTime = some true) (hn : 2 ≤ kw.nTimes.getD 1101) (g : Rng) :
    ∃ t, times S kw g = .ok (t, g) ∧ (∀ l, kw.t = some l → t = l) ∧ (kw.t = none → ∃ n : Nat, kw.nTimes.getD 1101 = n + 1 ∧ t.length = n + 1 ∧
      t[0]? = some (kw.begin_.getD (-10)) ∧ t[n]? = some (kw.end_.getD 100) ∧
      ∀ k, k ≤ n → t[k]? = some (kw.begin_.getD (-10) + k * ((kw.end_.getD 100 - kw.begin_.getD (-10)) / n))) := by
  obtain ⟨n, hn'⟩ : ∃ n : Nat, kw.nTimes.getD 1101 = n + 1 := ⟨(kw.nTimes.getD 1101 - 1).toNat, by omega⟩
  refine ⟨kw.t.getD (linspace (kw.begin_.getD (-10)) (kw.end_.getD 100) (n + 1)), ?_, ?_, ?_⟩
  · unfold times
    simp only [hu, Option.getD_some, if_true]
    rw [if_neg (by omega), hn', show ((n : Int) + 1).toNat = n + 1 by omega]
  · intro l hl
    rw [hl, Option.getD_some]
  · intro hl
    rw [hl, Option.getD_none]
    have key : ∀ k, k ≤ n → (linspace (kw.begin_.getD (-10)) (kw.end_.getD 100) (n + 1))[k]? = some (kw.begin_.getD (-10) + k * ((kw.end_.getD 100 - kw.begin_.getD (-10)) / n)) := by
      intro k hk
      unfold linspace
      rw [List.getElem?_map, List.getElem?_range (by omega), Option.map_some]
      push_cast
      rw [add_sub_cancel_right]
    have hn0 : (n : ℝ) ≠ 0 := by
      have : n ≠ 0 := by omega
      exact_mod_cast this
    refine ⟨n, hn', by simp [linspace], ?_, ?_, key⟩
    · rw [key 0 (by omega)]
      simp
    · rw [key n le_rfl]
      congr 1
      field_simp
      ring

theorem columns : (LMRange 2 8).length = 77 := by
  have := Verif.Props.Samples.length_two
  omega

/-- `modes_constructor` as it is called here. -/
theorem constructor_ok (functor : List ℝ → List (Int × Int) → Py (Nat → Row ℂ)) (t : List ℝ) (frame : Option (List (Quaternion ℝ))) (ft : Option Int) (data : Nat → Row ℂ) (h : functor t (LMRange 2 8) = .ok data) :
    modesConstructor functor { t := some t, frame := frame, frameType := ft } = .ok
      { t := t, frame := frame.getD [], data := data, history := ["# Called from constant_waveform"], frameType := ft.getD 1, dataType := Weights.h, rOut := true, mOut := true, ellMin := 2, ellMax := 8 } := by
  have e : pyGet Weights.SpinWeights Weights.h = .ok (-2) := rfl
  unfold modesConstructor
  simp only [Option.getD_none, Option.getD_some, e, ok_bind, abs_neg, abs_two, h]
  rfl

theorem random_still (hash : String → Int) (S : Source) (kw : Kw) (g g1 : Rng) (t : List ℝ) (ht : times S kw (seedOf hash "random_waveform") = .ok (t, g1)) (hr : kw.rotating = some false) :
    randomWaveform hash S kw g = .ok
      { wave := { t := t, frame := [], data := fun i j => if 0 ≤ j then asComplex (normals S (2 * (t.length * 77)) g1).1 (i * 77 + j.toNat) else 0, history := ["# Called from constant_waveform"],
                  frameType := 1, dataType := Weights.h, rOut := true, mOut := true, ellMin := 2, ellMax := 8 },
        statement := { name := "random_waveform", kw := remaining kw }, rng := (normals S (2 * (t.length * 77)) g1).2 } := by
  unfold randomWaveform
  simp only [ht, ok_bind, hr, Option.getD_some, Bool.false_eq_true, if_false, columns]
  rw [constructor_ok _ t none none _ rfl, ok_bind]
  simp only [columns]
  rfl

theorem random_rotating (hash : String → Int) (S : Source) (kw : Kw) (g g1 : Rng) (t : List ℝ) (ht : times S kw (seedOf hash "random_waveform") = .ok (t, g1)) (hr : kw.rotating.getD true = true) :
    randomWaveform hash S kw g = .ok
      { wave := { t := t, frame := (randomRotors S t.length g1).1,
                  data := fun i j => if 0 ≤ j then asComplex (normals S (2 * (t.length * 77)) (randomRotors S t.length g1).2).1 (i * 77 + j.toNat) else 0, history := ["# Called from constant_waveform"],
                  frameType := 4, dataType := Weights.h, rOut := true, mOut := true, ellMin := 2, ellMax := 8 },
        statement := { name := "random_waveform", kw := remaining kw }, rng := (normals S (2 * (t.length * 77)) (randomRotors S t.length g1).2).2 } := by
  unfold randomWaveform
  simp only [ht, ok_bind, hr, if_true, columns]
  rw [constructor_ok _ t _ _ _ rfl, ok_bind]
  simp only [columns]
  rfl

theorem rotors_spec (S : Source) (n : Nat) (g : Rng) : (randomRotors S n g).1.length = n ∧ (randomRotors S n g).2 = { g with pos := g.pos + 4 * n } ∧
    ((∀ k, S.uniform g.seed k ≠ 1 / 2) → ∀ q ∈ (randomRotors S n g).1, Quaternion.normSq q = 1) := by
  induction n generalizing g with
  | zero => exact ⟨rfl, rfl, fun _ q hq => absurd hq List.not_mem_nil⟩
  | succ n ih =>
    obtain ⟨h1, h2, h3⟩ := ih (randomRotor S g).2
    refine ⟨?_, ?_, ?_⟩
    · unfold randomRotors
      simp only [List.length_cons, h1]
    · unfold randomRotors
      simp only [h2]
      show Rng.mk g.seed (g.pos + 4 + 4 * n) = _
      congr 1
      ring
    · intro hne q hq
      unfold randomRotors at hq
      simp only [List.mem_cons] at hq
      rcases hq with rfl | hq
      · unfold randomRotor
        simp only
        obtain ⟨p, hp⟩ : ∃ p : Quaternion ℝ, p = ⟨(uniforms S (-1) 1 4 g).1.getD 0 0, (uniforms S (-1) 1 4 g).1.getD 1 0, (uniforms S (-1) 1 4 g).1.getD 2 0, (uniforms S (-1) 1 4 g).1.getD 3 0⟩ := ⟨_, rfl⟩
        rw [← hp]
        have hp0 : p.re ≠ 0 := by
          have : p.re = -1 + (1 - -1) * S.uniform g.seed (g.pos + 0) := by rw [hp]; rfl
          rw [this]
          intro h
          exact hne (g.pos + 0) (by linarith)
        have hpos : Quaternion.normSq p ≠ 0 := by
          rw [Quaternion.normSq_def']
          have := sq_pos_of_ne_zero hp0
          positivity
        rw [Quaternion.normSq_smul, inv_pow, Real.sq_sqrt Quaternion.normSq_nonneg, inv_mul_cancel₀ hpos]
      · exact h3 hne q hq

/-- **C98**: `random_waveform`.  The times are those of `random_times` or `uniform_times`; the modes go from `ell = 2` to 8 and every weight is a pair of normal numbers of its own; the frame is inertial, or a rotor of length 1 at each time. -/
theorem random_spec (hash : String → Int) (S : Source) (kw : Kw) (g g1 : Rng) (t : List ℝ) (ht : times S kw (seedOf hash "random_waveform") = .ok (t, g1)) :
    ∃ out, randomWaveform hash S kw g = .ok out ∧ out.wave.t = t ∧ out.wave.ellMin = 2 ∧ out.wave.ellMax = 8 ∧ out.wave.dataType = Weights.h ∧
      (kw.rotating = some false → out.wave.frame = [] ∧ out.wave.frameType = 1) ∧
      (kw.rotating ≠ some false → out.wave.frame.length = t.length ∧ out.wave.frameType = 4 ∧ ((∀ k, S.uniform g1.seed k ≠ 1 / 2) → ∀ q ∈ out.wave.frame, Quaternion.normSq q = 1)) ∧
      ∃ p, ∀ i j : Nat, i < t.length → j < 77 → out.wave.data i j = ⟨S.normal g1.seed (p + 2 * (i * 77 + j)), S.normal g1.seed (p + 2 * (i * 77 + j) + 1)⟩ := by
  have hval : ∀ (g2 : Rng) (i j : Nat), i < t.length → j < 77 →
      asComplex (normals S (2 * (t.length * 77)) g2).1 (i * 77 + j) = ⟨S.normal g2.seed (g2.pos + 2 * (i * 77 + j)), S.normal g2.seed (g2.pos + 2 * (i * 77 + j) + 1)⟩ := by
    intro g2 i j hi hj
    have hlt : i * 77 + j + 1 ≤ t.length * 77 := by nlinarith
    unfold asComplex normals
    simp only [List.getD_eq_getElem?_getD, List.getElem?_map]
    rw [List.getElem?_range (by omega), List.getElem?_range (by omega)]
    rfl
  by_cases hr : kw.rotating = some false
  · refine ⟨_, random_still hash S kw g g1 t ht hr, rfl, rfl, rfl, rfl, fun _ => ⟨rfl, rfl⟩, fun h => absurd hr h, g1.pos, ?_⟩
    intro i j hi hj
    simp only
    rw [if_pos (by omega), Int.toNat_natCast]
    exact hval g1 i j hi hj
  · have hr' : kw.rotating.getD true = true := by
      rcases h : kw.rotating with _ | _ | _
      · rfl
      · exact absurd h hr
      · rfl
    obtain ⟨r1, r2, r3⟩ := rotors_spec S t.length g1
    refine ⟨_, random_rotating hash S kw g g1 t ht hr', rfl, rfl, rfl, rfl, fun h => absurd h hr, fun _ => ⟨r1, rfl, r3⟩, (randomRotors S t.length g1).2.pos, ?_⟩
    intro i j hi hj
    have := hval (randomRotors S t.length g1).2 i j hi hj
    have e : (randomRotors S t.length g1).2.seed = g1.seed := by rw [r2]
    simp only
    rw [if_pos (by omega), Int.toNat_natCast, this, e]

/-! ## The waveform that is proportional to the time -/

theorem turning_ok (x y z : ℝ) (t : List ℝ) (h : t ≠ []) : turning x y z t = .ok (t.map fun ti => expRotor (fun i => (![x, y, z] : Fin 3 → ℝ) i / vabs ![x, y, z]) (2 * Real.pi * 4 / (t.getLast h - t.head h) * ti / 2)) := by
  unfold turning
  simp only
  rw [Props.AbdTransform.pyGet_first t h, Props.AbdTransform.pyGet_last t h]
  rfl

theorem proportional_rotating (hash : String → Int) (S : Source) (kw : Kw) (g g1 : Rng) (t : List ℝ) (hn : t ≠ []) (ht : times S kw (seedOf hash "random_waveform_proportional_to_time") = .ok (t, g1))
    (hr : kw.rotating.getD true = true) :
    ∃ x y z fr, x = (uniforms S (-1) 1 3 g1).1.getD 0 0 ∧ turning x y z t = .ok fr ∧ proportionalWaveform hash S kw g = .ok
      { wave := { t := t, frame := fr, data := fun i j => if 0 ≤ j then (t.getD i 0 : ℝ) * asComplex (normals S (2 * 77) (uniforms S (-1) 1 3 g1).2).1 j.toNat else 0,
                  history := ["# Called from constant_waveform"], frameType := 4, dataType := Weights.h, rOut := true, mOut := true, ellMin := 2, ellMax := 8 },
        statement := { name := "random_waveform", kw := remaining kw }, rng := (normals S (2 * 77) (uniforms S (-1) 1 3 g1).2).2 } := by
  have e := turning_ok ((uniforms S (-1) 1 3 g1).1.getD 0 0) ((uniforms S (-1) 1 3 g1).1.getD 1 0) ((uniforms S (-1) 1 3 g1).1.getD 2 0) t hn
  refine ⟨_, _, _, _, rfl, e, ?_⟩
  unfold proportionalWaveform
  simp only [ht, ok_bind, hr, if_true, columns, turningFrame, e]
  rw [constructor_ok _ t _ _ _ rfl, ok_bind]
  rfl

theorem proportional_still (hash : String → Int) (S : Source) (kw : Kw) (g g1 : Rng) (t : List ℝ) (ht : times S kw (seedOf hash "random_waveform_proportional_to_time") = .ok (t, g1)) (hr : kw.rotating = some false) :
    proportionalWaveform hash S kw g = .ok
      { wave := { t := t, frame := [], data := fun i j => if 0 ≤ j then (t.getD i 0 : ℝ) * asComplex (normals S (2 * 77) g1).1 j.toNat else 0,
                  history := ["# Called from constant_waveform"], frameType := 1, dataType := Weights.h, rOut := true, mOut := true, ellMin := 2, ellMax := 8 },
        statement := { name := "random_waveform", kw := remaining kw }, rng := (normals S (2 * 77) g1).2 } := by
  unfold proportionalWaveform
  simp only [ht, ok_bind, hr, Option.getD_some, Bool.false_eq_true, if_false, columns, turningFrame]
  rw [constructor_ok _ t none none _ rfl, ok_bind]
  rfl

theorem vabs_div {v : Fin 3 → ℝ} (h : vabs v ≠ 0) : vabs (fun i => v i / vabs v) = 1 := by
  have hsq : vabs v ^ 2 = v 0 ^ 2 + v 1 ^ 2 + v 2 ^ 2 := Real.sq_sqrt (by positivity)
  have e : (v 0 / vabs v) ^ 2 + (v 1 / vabs v) ^ 2 + (v 2 / vabs v) ^ 2 = 1 := by
    field_simp
    exact hsq.symm
  show √((v 0 / vabs v) ^ 2 + (v 1 / vabs v) ^ 2 + (v 2 / vabs v) ^ 2) = 1
  rw [e, Real.sqrt_one]

/-- **C98**: `random_waveform_proportional_to_time`: each weight is the time times a number that does not depend on the time.  In the rotating case the rotor is `exp(n ω t / 2)`, with a fixed axis `n` of length 1 and `ω` such that there are
exactly four turns from the first time to the last. -/
theorem proportional_spec (hash : String → Int) (S : Source) (kw : Kw) (g g1 : Rng) (t : List ℝ) (hn : t ≠ []) (ht : times S kw (seedOf hash "random_waveform_proportional_to_time") = .ok (t, g1)) :
    ∃ out, proportionalWaveform hash S kw g = .ok out ∧ out.wave.t = t ∧ out.wave.ellMin = 2 ∧ out.wave.ellMax = 8 ∧ out.wave.dataType = Weights.h ∧
      (∃ c : Nat → ℂ, ∀ i j : Nat, out.wave.data i j = (t.getD i 0 : ℝ) * c j) ∧
      (kw.rotating = some false → out.wave.frame = [] ∧ out.wave.frameType = 1) ∧
      (kw.rotating ≠ some false → out.wave.frameType = 4 ∧ ∃ (n : Fin 3 → ℝ) (omega : ℝ), out.wave.frame = t.map (fun ti => expRotor n (omega * ti / 2)) ∧
        ((∀ k, S.uniform g1.seed k ≠ 1 / 2) → vabs n = 1) ∧ (t.head hn ≠ t.getLast hn → omega * (t.getLast hn - t.head hn) = 4 * (2 * Real.pi))) := by
  by_cases hr : kw.rotating = some false
  · refine ⟨_, proportional_still hash S kw g g1 t ht hr, rfl, rfl, rfl, rfl, ⟨fun j => asComplex (normals S (2 * 77) g1).1 j, fun i j => ?_⟩, fun _ => ⟨rfl, rfl⟩, fun h => absurd hr h⟩
    simp only
    rw [if_pos (by omega), Int.toNat_natCast]
  · have hr' : kw.rotating.getD true = true := by
      rcases h : kw.rotating with _ | _ | _
      · rfl
      · exact absurd h hr
      · rfl
    obtain ⟨x, y, z, fr, hx, h1, h2⟩ := proportional_rotating hash S kw g g1 t hn ht hr'
    rw [turning_ok x y z t hn] at h1
    have h1 := Except.ok.inj h1
    refine ⟨_, h2, rfl, rfl, rfl, rfl, ⟨fun j => asComplex (normals S (2 * 77) (uniforms S (-1) 1 3 g1).2).1 j, fun i j => ?_⟩, fun h => absurd h hr, fun _ => ⟨rfl, _, _, h1.symm, fun hne => ?_, fun hne => ?_⟩⟩
    · simp only
      rw [if_pos (by omega), Int.toNat_natCast]
    · apply vabs_div
      have hx0 : x ≠ 0 := by
        have : x = -1 + (1 - -1) * S.uniform g1.seed (g1.pos + 0) := by rw [hx]; rfl
        rw [this]
        intro h
        exact hne (g1.pos + 0) (by linarith)
      unfold vabs
      rw [Real.sqrt_ne_zero']
      show 0 < x ^ 2 + y ^ 2 + z ^ 2
      have := sq_pos_of_ne_zero hx0
      positivity
    · have : t.getLast hn - t.head hn ≠ 0 := sub_ne_zero.mpr (Ne.symm hne)
      field_simp

/-- The rotors of one axis: turning for the time `t` after `s` is turning for `t + s`, and a whole number of turns changes at most the sign, four turns nothing. -/
theorem four_turns (n : Fin 3 → ℝ) (omega s t : ℝ) (h : omega * (t - s) = 4 * (2 * Real.pi)) : expRotor n (omega * t / 2) = expRotor n (omega * s / 2) := by
  have e : omega * t / 2 = omega * s / 2 + (2 : ℕ) * (2 * Real.pi) := by
    push_cast
    linear_combination h / 2
  unfold expRotor
  rw [e, Real.cos_add_nat_mul_two_pi, Real.sin_add_nat_mul_two_pi]

/-! ## What is not as documented -/

theorem times_congr (S : Source) {kw kw' : Kw} (h1 : kw.begin_ = kw'.begin_) (h2 : kw.end_ = kw'.end_) (h3 : kw.nTimes = kw'.nTimes) (h4 : kw.uniformTime = kw'.uniformTime)
    (h5 : kw.uniformTime = some true → kw.t = kw'.t) (g : Rng) : times S kw g = times S kw' g := by
  unfold times
  rw [← h1, ← h2, ← h3, ← h4]
  by_cases h : kw.uniformTime = some true
  · rw [h5 h]
  · have : kw.uniformTime.getD false = false := by
      rcases e : kw.uniformTime with _ | _ | _
      · rfl
      · rfl
      · exact absurd e h
    simp only [this, Bool.false_eq_true, if_false]

/-- **C98**, refuted: "additional keyword arguments are passed to `modes_constructor`".  They do not change the waveform, and neither does `t` if `uniform_time` is not true. -/
theorem others_ignored (hash : String → Int) (S : Source) {kw kw' : Kw} (h1 : kw.begin_ = kw'.begin_) (h2 : kw.end_ = kw'.end_) (h3 : kw.nTimes = kw'.nTimes) (h4 : kw.uniformTime = kw'.uniformTime)
    (h5 : kw.uniformTime = some true → kw.t = kw'.t) (h6 : kw.rotating = kw'.rotating) (g g' : Rng) :
    (randomWaveform hash S kw g).map (fun o => (o.wave, o.rng)) = (randomWaveform hash S kw' g').map (fun o => (o.wave, o.rng)) ∧
    (proportionalWaveform hash S kw g).map (fun o => (o.wave, o.rng)) = (proportionalWaveform hash S kw' g').map (fun o => (o.wave, o.rng)) := by
  have ht := times_congr S h1 h2 h3 h4 h5
  have hb : ∀ {α β : Type} (x : Py α) (f f' : α → Py Out), (∀ a, (f a).map (fun o => (o.wave, o.rng)) = (f' a).map (fun o => (o.wave, o.rng))) →
      (x >>= f).map (fun o => (o.wave, o.rng)) = (x >>= f').map (fun o => (o.wave, o.rng)) := by
    intro α _ x f f' h
    rcases x with e | a
    · rfl
    · exact h a
  constructor
  · unfold randomWaveform
    simp only [ht, h6]
    refine hb (β := Unit) _ _ _ fun p => ?_
    refine hb (β := Unit) _ _ _ fun w => ?_
    rfl
  · unfold proportionalWaveform
    simp only [ht, h6]
    refine hb (β := Unit) _ _ _ fun p => ?_
    refine hb (β := Unit) _ _ _ fun fr => ?_
    refine hb (β := Unit) _ _ _ fun w => ?_
    rfl

/-- The keyword `ell_max` of `modes_constructor`, for all values: the modes always go up to 8. -/
theorem ell_max_ignored (hash : String → Int) (S : Source) (L : Int) (g : Rng) :
    ∃ out, randomWaveform hash S { others := { ellMax := some L } } g = .ok out ∧ out.wave.ellMax = 8 ∧ out.statement.kw.others.ellMax = some L := by
  obtain ⟨t, g1, ht⟩ : ∃ t g1, times S { others := { ellMax := some L } } (seedOf hash "random_waveform") = .ok (t, g1) := ⟨_, _, rfl⟩
  exact ⟨_, random_rotating hash S _ g g1 t ht rfl, rfl, rfl⟩

/-- The state of numpy's global generator after the call does not depend on the state before it: all random numbers the caller draws afterwards are the same after each call, whatever they seeded the generator with. -/
theorem caller_repeats (hash : String → Int) (S : Source) (kw : Kw) (g g' : Rng) (out out' : Out) (h : randomWaveform hash S kw g = .ok out) (h' : randomWaveform hash S kw g' = .ok out') (a b : ℝ) (n : Nat) :
    out.wave = out'.wave ∧ uniforms S a b n out.rng = uniforms S a b n out'.rng ∧ normals S n out.rng = normals S n out'.rng := by
  have := (others_ignored hash S (kw := kw) (kw' := kw) rfl rfl rfl rfl (fun _ => rfl) rfl g g').1
  rw [h, h'] at this
  have e := Except.ok.inj this
  have e1 : out.wave = out'.wave := congrArg Prod.fst e
  have e2 : out.rng = out'.rng := congrArg Prod.snd e
  exact ⟨e1, by rw [e2], by rw [e2]⟩

/-- A source of numbers for the examples: the uniform numbers are 1/4, the normal ones are the seed. -/
noncomputable def seedSource : Source := { uniform := fun _ _ => 1 / 4, normal := fun s _ => s }

/-- One time, `-10 + 110/4`, and no rotation. -/
def oneTime : Kw := { nTimes := some 1, rotating := some false }

theorem one_time (hash : String → Int) (name : String) : times seedSource oneTime (seedOf hash name) = .ok ([-10 + (100 - -10) * (1 / 4)], { seed := hash name % 4294967294, pos := 1 }) := rfl

/-- **C98**, refuted: the seed is a hash of a string, and python salts these hashes: another run of the same program gives another waveform. -/
theorem not_reproducible : ∃ (S : Source) (kw : Kw) (hash hash' : String → Int) (g : Rng) (out out' : Out), Unit01 S ∧ randomWaveform hash S kw g = .ok out ∧ randomWaveform hash' S kw g = .ok out' ∧ out.wave.data 0 0 ≠ out'.wave.data 0 0 := by
  refine ⟨seedSource, oneTime, fun _ => 1, fun _ => 2, ⟨0, 0⟩, _, _, ?_, random_still _ _ _ _ _ _ (one_time _ _) rfl, random_still _ _ _ _ _ _ (one_time _ _) rfl, ?_⟩
  · intro s k
    show (0 : ℝ) ≤ 1 / 4 ∧ (1 / 4 : ℝ) < 1
    norm_num
  · intro h
    have h := congrArg Complex.re h
    have h : (((1 : Int) % 4294967294 : Int) : ℝ) = (((2 : Int) % 4294967294 : Int) : ℝ) := h
    norm_num at h

/-- **C98**, refuted: the constructor statement, executed, does not give the waveform: it has lost the keywords, here the number of times, which is 1101 again. -/
theorem statement_wrong (hash : String → Int) (g : Rng) : ∃ out out', randomWaveform hash seedSource oneTime g = .ok out ∧ randomWaveform hash seedSource out.statement.kw g = .ok out' ∧
    out.wave.t.length = 1 ∧ out'.wave.t.length = 1101 := by
  obtain ⟨t, g1, ht, hl⟩ : ∃ t g1, times seedSource (remaining oneTime) (seedOf hash "random_waveform") = .ok (t, g1) ∧ t.length = 1101 := by
    refine ⟨_, _, rfl, ?_⟩
    simp [sorted, uniforms, remaining, oneTime]
  exact ⟨_, _, random_still _ _ _ _ _ _ (one_time _ _) rfl, random_rotating hash seedSource _ g g1 t ht rfl, rfl, hl⟩

theorem bind_ok {α β : Type} {x : Py α} {f : α → Py β} {y : β} (h : (x >>= f) = .ok y) : ∃ a, x = .ok a ∧ f a = .ok y := by
  rcases x with e | a
  · exact absurd h (by simp [error_bind])
  · exact ⟨a, rfl, h⟩

/-- The statement of `random_waveform_proportional_to_time` names the other function. -/
theorem statement_name (hash : String → Int) (S : Source) (kw : Kw) (g : Rng) (out : Out) (h : proportionalWaveform hash S kw g = .ok out) : out.statement.name = "random_waveform" := by
  unfold proportionalWaveform at h
  obtain ⟨p, -, h⟩ := bind_ok h
  obtain ⟨q, -, h⟩ := bind_ok h
  obtain ⟨w, -, h⟩ := bind_ok h
  rw [← Except.ok.inj h]

/-- No times at all: `random_waveform` gives an empty waveform, the other one an `IndexError` if it is to rotate. -/
theorem no_times (hash : String → Int) (S : Source) (g : Rng) :
    (∃ out, randomWaveform hash S { nTimes := some 0 } g = .ok out ∧ out.wave.t = []) ∧ proportionalWaveform hash S { nTimes := some 0 } g = .error .indexError := by
  refine ⟨⟨_, random_rotating hash S _ g _ [] rfl rfl, rfl⟩, ?_⟩
  rfl

/-- The hypotheses are met: two times of a generator, and a rotating waveform of four turns. -/
example : ∃ (S : Source) (kw : Kw) (g1 : Rng) (t : List ℝ) (hn : t ≠ []), Unit01 S ∧ (∀ k, S.uniform g1.seed k ≠ 1 / 2) ∧ times S kw (seedOf (fun _ => 1) "random_waveform_proportional_to_time") = .ok (t, g1) ∧
    t.head hn ≠ t.getLast hn ∧ kw.rotating ≠ some false := by
  refine ⟨seedSource, { uniformTime := some true, t := some [0, 1] }, _, [0, 1], by simp, ?_, ?_, rfl, ?_, by simp⟩
  · intro s k
    show (0 : ℝ) ≤ 1 / 4 ∧ (1 / 4 : ℝ) < 1
    norm_num
  · intro k
    show (1 / 4 : ℝ) ≠ 1 / 2
    norm_num
  · show (0 : ℝ) ≠ 1
    norm_num

end Verif.Props.RandomSamples
