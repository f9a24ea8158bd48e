import Verif.Model.Precessing
import Verif.Spec.Precessing
import Verif.Props.Samples
import Verif.Props.AbdFrame
import Verif.Props.Transition
import Verif.Props.PnAmplitude
import Verif.Props.AbdCompose
import Verif.Lemmas.Bms

/-!
# C93: the precessing sample waveform
-/

namespace Verif.Props.Precessing
open Verif Verif.Modes Verif.Samples Verif.Transition Verif.AbdFrame Verif.PnAmplitude Verif.Precessing Verif.Spec.Precessing Verif.Spec.AbdFrame
open Verif.Props.Transition (Sorted SameLength)
open Verif.Props.Samples (modesAt)

/-! ## Times -/

/-- The times of the waveform. -/
noncomputable def grid (a : Args) : List ℝ := arange a.t0 (a.t1 + 99 / 100 * a.dt) a.dt

/-- C93: the times start at `t_0` and have the spacing `dt`; the last of them is less than `0.99 dt` after `t_1` and at most `0.01 dt` before it. -/
theorem times (a : Args) (hd : 0 < a.dt) (h : a.t0 ≤ a.t1) : ∃ n : Nat, (grid a).length = n + 1 ∧ (∀ k ≤ n, (grid a)[k]? = some (a.t0 + k * a.dt)) ∧
    a.t1 - a.dt / 100 ≤ a.t0 + n * a.dt ∧ a.t0 + n * a.dt < a.t1 + 99 / 100 * a.dt := by
  set X := (a.t1 + 99 / 100 * a.dt - a.t0) / a.dt with hX
  have h0 : 0 < X := div_pos (by nlinarith) hd
  have hc : (0 : ℤ) < ⌈X⌉ := Int.ceil_pos.2 h0
  obtain ⟨n, hn⟩ : ∃ n : Nat, ⌈X⌉ = (n : ℤ) + 1 := ⟨(⌈X⌉ - 1).toNat, by omega⟩
  have b1 := Int.le_ceil X
  have b2 := Int.ceil_lt_add_one X
  rw [hn] at b1 b2
  push_cast at b1 b2
  rw [hX, div_le_iff₀ hd] at b1
  have b2' : (n : ℝ) < X := by linarith
  rw [hX, lt_div_iff₀ hd] at b2'
  refine ⟨n, ?_, fun k hk => ?_, by linarith, by linarith⟩
  · unfold grid arange
    rw [List.length_map, List.length_range, ← hX, hn]
    omega
  · unfold grid arange
    rw [List.getElem?_map, List.getElem?_range (by rw [← hX, hn]; omega)]
    rfl

theorem grid_get (a : Args) {k : Nat} {u : ℝ} (h : (grid a)[k]? = some u) : u = a.t0 + k * a.dt := by
  unfold grid arange at h
  rw [List.getElem?_map] at h
  rcases e : (List.range ⌈(a.t1 + 99 / 100 * a.dt - a.t0) / a.dt⌉.toNat)[k]? with _ | j
  · rw [e] at h; simp at h
  · rw [e] at h
    obtain ⟨hk, ej⟩ := List.getElem?_eq_some_iff.1 e
    rw [List.getElem_range] at ej
    simp only [Option.map_some, Option.some.injEq] at h
    rw [← h, ej]

theorem first_get (a : Args) {l : List ℝ} (h : l = grid a) (hl : 0 < l.length) : l[0]? = some a.t0 := by
  subst h
  have e := List.getElem?_eq_getElem hl
  rw [e, grid_get a e]
  simp

theorem grid_sorted (a : Args) (hd : 0 < a.dt) : Sorted (grid a) := by
  unfold Sorted
  rw [List.pairwise_iff_getElem]
  intro i j hi hj hij
  rw [grid_get a (List.getElem?_eq_getElem hi), grid_get a (List.getElem?_eq_getElem hj)]
  have : (i : ℝ) ≤ j := by exact_mod_cast hij.le
  nlinarith

/-- C93: the last time can be before `t_1` or after it. -/
theorem last_time : (∃ t ∈ grid { t0 := 0, t1 := 1, dt := 3 / 10 }, 1 < t) ∧ ∀ t ∈ grid { t0 := 0, t1 := 1, dt := 1000 / 1991 }, t ≠ 1 := by
  constructor
  · obtain ⟨n, h1, h2, h3, -⟩ := times { t0 := 0, t1 := 1, dt := 3 / 10 } (by norm_num) (by norm_num)
    dsimp only at h2 h3
    have hn : 4 ≤ n := by
      by_contra hn
      have : (n : ℝ) ≤ 3 := by exact_mod_cast (by omega : n ≤ 3)
      linarith
    refine ⟨_, List.mem_of_getElem? (h2 4 hn), by norm_num⟩
  · intro t ht he
    obtain ⟨k, hk⟩ := List.getElem?_of_mem ht
    have := grid_get _ hk
    dsimp only at this
    rw [he] at this
    have h2 : (1991 : ℝ) = k * 1000 := by linarith
    have h3 : (1991 : Nat) = k * 1000 := by exact_mod_cast h2
    omega

/-- The nearest of the times is not more than half of the spacing away. -/
theorem near_grid (a : Args) (hd : 0 < a.dt) (n : Nat) (hg : ∀ k ≤ n, (grid a)[k]? = some (a.t0 + k * a.dt)) (x : ℝ) (h0 : a.t0 ≤ x) (h1 : x ≤ a.t0 + n * a.dt) {i : Nat} {u : ℝ}
    (hi : Nearest (grid a) x i) (hu : (grid a)[i]? = some u) : |u - x| ≤ a.dt / 2 := by
  obtain ⟨v, hv, hmin, -⟩ := hi
  rw [hu] at hv
  injection hv with hv
  subst hv
  set y := (x - a.t0) / a.dt with hy
  have hxy : x = a.t0 + y * a.dt := by rw [hy]; field_simp; ring
  have hy0 : 0 ≤ y := div_nonneg (by linarith) hd.le
  have hyn : y ≤ n := by rw [hy, div_le_iff₀ hd]; linarith
  obtain ⟨k, hk1, hk2⟩ : ∃ k : Nat, k ≤ n ∧ |(k : ℝ) - y| ≤ 1 / 2 := by
    have f1 := Nat.floor_le hy0
    have f2 := Nat.lt_floor_add_one y
    by_cases hf : y ≤ ⌊y⌋₊ + 1 / 2
    · refine ⟨⌊y⌋₊, ?_, abs_le.2 ⟨by linarith, by linarith⟩⟩
      have : (⌊y⌋₊ : ℝ) ≤ n := by linarith
      exact_mod_cast this
    · refine ⟨⌊y⌋₊ + 1, ?_, abs_le.2 ⟨by push_cast; linarith, by push_cast; linarith⟩⟩
      have : (⌊y⌋₊ : ℝ) < n := by linarith
      have := Nat.cast_lt.1 this
      omega
  have := hmin _ (List.mem_of_getElem? (hg k hk1))
  have e : a.t0 + k * a.dt - x = (k - y) * a.dt := by rw [hxy]; ring
  rw [e, abs_mul, abs_of_pos hd] at this
  nlinarith

/-- When there are fewer than 20 times before the merger. -/
theorem close_iff (a : Args) (hd : 0 < a.dt) (h : a.t0 ≤ a.t1) {i : Nat} (hi : Nearest (grid a) (a.t1 - 100) i) : i < 20 ↔ a.t1 - 100 ≤ a.t0 + 39 / 2 * a.dt := by
  obtain ⟨n, hlen', hg, hl, -⟩ := times a hd h
  obtain ⟨u, hu, hmin, hfirst⟩ := hi
  have eu := grid_get a hu
  constructor
  · intro h20
    by_contra hx
    have hn : 20 ≤ n := by
      by_contra hn
      have : (n : ℝ) ≤ 19 := by exact_mod_cast (by omega : n ≤ 19)
      nlinarith
    have h1 := hmin _ (List.mem_of_getElem? (hg 20 hn))
    have h2 : (i : ℝ) ≤ 19 := by exact_mod_cast (by omega : i ≤ 19)
    have h3 : (i : ℝ) * a.dt ≤ 19 * a.dt := by nlinarith
    rw [abs_of_neg (by linarith)] at h1
    push_cast at h1
    rcases abs_cases (a.t0 + 20 * a.dt - (a.t1 - 100)) with ⟨e, -⟩ | ⟨e, -⟩ <;> rw [e] at h1 <;> linarith
  · intro hx
    by_contra h20
    have h2 : (20 : ℝ) ≤ i := by exact_mod_cast (by omega : 20 ≤ i)
    have h3 : 20 * a.dt ≤ (i : ℝ) * a.dt := by nlinarith
    have h19 : 19 ≤ n := by
      have hlen : i < (grid a).length := (List.getElem?_eq_some_iff.1 hu).1
      omega
    have h1 := hfirst 19 _ (by omega) (hg 19 h19)
    rw [abs_of_nonneg (by linarith)] at h1
    push_cast at h1
    rcases abs_cases (a.t0 + 19 * a.dt - (a.t1 - 100)) with ⟨e, -⟩ | ⟨e, -⟩ <;> rw [e] at h1 <;> linarith

/-- C93: if the merger is less than 20 steps after `t_0`, the function raises `ValueError`. -/
theorem too_close (E : Ext) (toInertial : Wave → Py Wave) (a : Args) (hd : 0 < a.dt) (h : a.t0 ≤ a.t1) (hc : a.t1 - 100 ≤ a.t0 + 39 / 2 * a.dt) :
    fakePrecessing E toInertial a = .error .valueError := by
  obtain ⟨n, hl, -⟩ := times a hd h
  obtain ⟨i, hi, hn⟩ := Verif.Props.AbdFrame.nearest_spec (grid a) (a.t1 - 100) (fun e => by rw [e] at hl; simp at hl)
  have h20 := (close_iff a hd h hn).2 hc
  have : corotating E a = .error .valueError := by
    unfold corotating
    simp only
    rw [show arange a.t0 (a.t1 + 99 / 100 * a.dt) a.dt = grid a from rfl, hi, ok_bind, if_pos h20]
  unfold fakePrecessing
  rw [this]
  rfl

/-! ## The parts of the waveform -/

theorem nearest_ok {t : List ℝ} {x : ℝ} {i : Nat} (h : nearest t x = .ok i) : Nearest t x i := by
  have ht : t ≠ [] := by
    rintro rfl
    cases h
  obtain ⟨j, hj, hn⟩ := Verif.Props.AbdFrame.nearest_spec t x ht
  rw [hj] at h
  injection h with h
  exact h ▸ hn

theorem get_ok {l : List ℝ} {i : Nat} {x : ℝ} (h : pyGet l (i : Int) = .ok x) : l[i]? = some x := by
  rcases e : l[i]? with _ | y
  · unfold pyGet at h
    have h1 : ¬ ((i : Int) < 0) := by omega
    simp [h1, e] at h
  · rw [pyGet_nat e] at h
    injection h with h
    rw [h]

/-- If the transition function has values, the times reach its end. -/
theorem reached {t : List ℝ} {x0 x1 y0 y1 : ℝ} {r : List ℝ × Nat × Nat} (h : transitionFunction t x0 x1 y0 y1 = .ok r) : ∃ z ∈ t, x0 < z ∧ x1 ≤ z := by
  by_contra hno
  have : (∀ z ∈ t, z < x1) ∨ ∀ z ∈ t, z ≤ x0 := by
    by_contra hh
    push Not at hh
    obtain ⟨⟨z, hz, h1⟩, z', hz', h2⟩ := hh
    apply hno
    rcases le_total z z' with hl | hl
    · exact ⟨z', hz', h2, h1.trans hl⟩
    · exact ⟨z, hz, h2.trans_le hl, h1⟩
  rw [Verif.Props.Transition.transition_not_reached t x0 x1 y0 y1 this] at h
  cases h

theorem trans_list {t : List ℝ} (ht : Sorted t) {x0 x1 y0 y1 : ℝ} {r : List ℝ × Nat × Nat} (h : transitionFunction t x0 x1 y0 y1 = .ok r) : r.1 = t.map (value x0 x1 y0 y1) := by
  obtain ⟨i0, i1, e⟩ := Verif.Props.Transition.transition_value t ht x0 x1 y0 y1 (reached h)
  rw [e] at h
  injection h with h
  rw [← h]

theorem getD_map {t : List ℝ} (f : ℝ → ℝ) {k : Nat} {u : ℝ} (h : t[k]? = some u) : (t.map f).getD k 0 = f u := by
  rw [List.getD_eq_getElem?_getD, List.getElem?_map, h]
  rfl

theorem getD_range {n : Nat} {α : Type} (f : Nat → α) (d : α) {k : Nat} (h : k < n) : ((List.range n).map f).getD k d = f k := by
  rw [List.getD_eq_getElem?_getD, List.getElem?_map, List.getElem?_range h]
  rfl

theorem getD_of {t : List ℝ} {k : Nat} {u : ℝ} (h : t[k]? = some u) : t.getD k 0 = u := by
  rw [List.getD_eq_getElem?_getD, h]
  rfl

theorem filter_prefix (p : ℝ → Prop) [DecidablePred p] (hp : ∀ x y, x ≤ y → p y → p x) : ∀ t : List ℝ, Sorted t → (t.filter fun u => p u) <+: t
  | [], _ => List.nil_prefix
  | x :: t, h => by
    rw [List.filter_cons]
    split_ifs with hx
    · exact (List.prefix_cons_inj x).2 (filter_prefix p hp t (List.pairwise_cons.1 h).2)
    · have : t.filter (fun u => p u) = [] := by
        rw [List.filter_eq_nil_iff]
        intro y hy
        simp only [decide_eq_true_eq] at hx ⊢
        exact fun hpy => hx (hp x y ((List.pairwise_cons.1 h).1 y hy) hpy)
      rw [this]
      exact List.nil_prefix

theorem tau_pos {nu tM u : ℝ} (hnu : 0 < nu) : 0 < tau nu tM u ↔ u < tM := by
  unfold tau
  constructor
  · intro h
    by_contra hu
    have : nu * (tM - u) ≤ 0 := mul_nonpos_of_nonneg_of_nonpos hnu.le (by linarith)
    linarith
  · intro h
    have := mul_pos hnu (sub_pos.2 h)
    linarith

/-- What is known about the phase and the frequency: the frequency follows the power law up to the time `s0`, is 1/4 from the time `s1` on, and is between the two in between; `s1` is the time before the merger at which
the power law is nearest to 1/4.  The phase follows the power law before `s0` and is the integral of the frequency from then on. -/
structure Orbit (E : Ext) (nu tM : ℝ) (t : List ℝ) (phi omega : Nat → ℝ) (s0 s1 : ℝ) : Prop where
  order : s0 ≤ s1
  before : s1 < tM
  nearest : ∀ u ∈ t, u < tM → |omega0 nu tM s1 - 1 / 4| ≤ |omega0 nu tM u - 1 / 4|
  width : ∀ u ∈ t, |s0 - (s1 - 5)| ≤ |u - (s1 - 5)|
  early : ∀ k u, t[k]? = some u → u ≤ s0 → u < s1 → omega k = omega0 nu tM u
  late : ∀ k u, t[k]? = some u → s1 ≤ u → omega k = 1 / 4
  between : ∀ k u, t[k]? = some u → u < s1 → ∃ x, 0 ≤ x ∧ x ≤ 1 ∧ omega k = (1 - x) * omega0 nu tM u + x * (1 / 4)
  phase : ∀ k u, t[k]? = some u → u < s0 → phi k = phi0 nu tM u
  integral : ∃ (i0 : Nat) (I : List ℝ), t[i0]? = some s0 ∧ E.integral ((List.range' i0 (t.length - i0)).map omega) (t.drop i0) = .ok I ∧
    ∀ k, i0 ≤ k → k < t.length → phi k = phi0 nu tM s0 + I.getD (k - i0) 0

theorem strict {t : List ℝ} (ht : t.Pairwise (· < ·)) {i j : Nat} {u v : ℝ} (hi : t[i]? = some u) (hj : t[j]? = some v) : (i < j ↔ u < v) ∧ (i ≤ j ↔ u ≤ v) := by
  obtain ⟨hi', rfl⟩ := List.getElem?_eq_some_iff.1 hi
  obtain ⟨hj', rfl⟩ := List.getElem?_eq_some_iff.1 hj
  have key := List.pairwise_iff_getElem.1 ht
  rcases lt_trichotomy i j with h | h | h
  · have := key i j hi' hj' h
    exact ⟨⟨fun _ => this, fun _ => h⟩, ⟨fun _ => this.le, fun _ => h.le⟩⟩
  · subst h
    simp
  · have := key j i hj' hi' h
    exact ⟨⟨fun h' => absurd h' (by omega), fun h' => absurd h' (not_lt.2 this.le)⟩, ⟨fun h' => absurd h' (by omega), fun h' => absurd h' (not_le.2 this)⟩⟩

theorem orbital_spec (E : Ext) (nu tM : ℝ) (hnu : 0 < nu) (t : List ℝ) (ht : t.Pairwise (· < ·)) (r : List ℝ × List ℝ) (h : orbital E nu tM t = .ok r) :
    r.1.length = t.length ∧ r.2.length = t.length ∧ ∃ s0 s1, Orbit E nu tM t (fun k => r.1.getD k 0) (fun k => r.2.getD k 0) s0 s1 := by
  have ht' : Sorted t := ht.imp le_of_lt
  unfold orbital at h
  obtain ⟨i1, h1, h⟩ := Verif.Props.AbdFrame.bind_ok h
  obtain ⟨s1, h2, h⟩ := Verif.Props.AbdFrame.bind_ok h
  obtain ⟨i0, h3, h⟩ := Verif.Props.AbdFrame.bind_ok h
  obtain ⟨s0, h4, h⟩ := Verif.Props.AbdFrame.bind_ok h
  obtain ⟨⟨tr, z1, z2⟩, h5, h⟩ := Verif.Props.AbdFrame.bind_ok h
  obtain ⟨I, h6, h⟩ := Verif.Props.AbdFrame.bind_ok h
  have hr := Except.ok.inj h
  have e1 := get_ok h2
  have e0 := get_ok h4
  have etr := trans_list ht' h5
  dsimp only at etr
  obtain ⟨v1, hv1, hmin1, -⟩ := nearest_ok h1
  obtain ⟨v0, hv0, hmin0, -⟩ := nearest_ok h3
  rw [e0] at hv0
  injection hv0 with hv0
  subst hv0
  have hpre : (t.filter fun u => 0 < tau nu tM u) <+: t := filter_prefix (fun u => 0 < tau nu tM u) (fun x y hxy hy => (tau_pos hnu).2 (hxy.trans_lt ((tau_pos hnu).1 hy))) t ht'
  rw [List.getElem?_map] at hv1
  rcases ef : (t.filter fun u => decide (0 < tau nu tM u))[i1]? with _ | w1
  · rw [ef] at hv1; simp at hv1
  rw [ef, Option.map_some, Option.some.injEq] at hv1
  have ew : w1 = s1 := by
    have hlt := (List.getElem?_eq_some_iff.1 ef).1
    have := hpre.getElem hlt
    have e' := (List.getElem?_eq_some_iff.1 ef).2
    have e'' := (List.getElem?_eq_some_iff.1 e1).2
    rw [← e', this, e'']
  subst ew
  have hmem := List.mem_filter.1 (List.mem_of_getElem? ef)
  have hlt : w1 < tM := (tau_pos hnu).1 (of_decide_eq_true hmem.2)
  have h01 : s0 ≤ w1 := by
    have := hmin0 w1 (List.mem_of_getElem? e1)
    rw [show w1 - (w1 - 5) = 5 by ring, abs_of_pos (by norm_num : (0 : ℝ) < 5)] at this
    have := (abs_le.1 this).2
    linarith
  have hom : ∀ k u, t[k]? = some u → r.2.getD k 0 = if u < w1 then omega0 nu tM u * (1 - value s0 w1 0 1 u) + 1 / 4 * value s0 w1 0 1 u else 1 / 4 := by
    intro k u hk
    have hkl := (List.getElem?_eq_some_iff.1 hk).1
    rw [← hr]
    dsimp only
    rw [getD_range _ _ hkl, getD_of hk, etr, getD_map _ hk]
    simp only [(strict ht hk e1).1]
  have hph : ∀ k u, t[k]? = some u → r.1.getD k 0 = if u < s0 then phi0 nu tM u else phi0 nu tM s0 + I.getD (k - i0) 0 := by
    intro k u hk
    have hkl := (List.getElem?_eq_some_iff.1 hk).1
    rw [← hr]
    dsimp only
    rw [getD_range _ _ hkl, getD_of hk]
    simp only [(strict ht hk e0).1]
  refine ⟨by rw [← hr]; simp, by rw [← hr]; simp, s0, w1, h01, hlt, ?_, hmin0, ?_, ?_, ?_, ?_, i0, I, e0, ?_, ?_⟩
  · intro u hu hut
    rw [hv1]
    exact hmin1 _ (List.mem_map_of_mem (List.mem_filter.2 ⟨hu, decide_eq_true ((tau_pos hnu).2 hut)⟩))
  · intro k u hk hu0 hu1
    rw [hom k u hk, if_pos hu1, value, if_pos hu0]
    ring
  · intro k u hk hu
    rw [hom k u hk, if_neg (not_lt.2 hu)]
  · intro k u hk hu
    refine ⟨value s0 w1 0 1 u, ?_, ?_, ?_⟩
    · rw [value_share]
      have := share_nonneg s0 w1 u
      linarith
    · rw [value_share]
      have := share_le_one s0 w1 u
      linarith
    · rw [hom k u hk, if_pos hu]
      ring
  · intro k u hk hu
    rw [hph k u hk, if_pos hu]
  · have : (List.range' i0 (t.length - i0)).map (fun k => r.2.getD k 0) = r.2.drop i0 := by
      have hl : r.2.length = t.length := by rw [← hr]; simp
      apply List.ext_getElem
      · rw [List.length_map, List.length_range', List.length_drop, hl]
      · intro n hn hn'
        rw [List.getElem_map, List.getElem_range', List.getElem_drop, List.getD_eq_getElem?_getD, List.getElem?_eq_getElem (by rw [List.length_drop] at hn'; omega)]
        simp
    rw [this, ← hr]
    exact h6
  · intro k hk hkl
    have hk' := List.getElem?_eq_getElem hkl
    rw [hph k _ hk', if_neg]
    exact not_lt.2 ((strict ht e0 hk').2.1 hk)

/-- What is known about the transition to the ringdown: nothing changes up to the time `r0` nearest to the merger; from the time `r1` nearest to `r0 + 20` on, the factor is an exponential. -/
structure Ringing (tM : ℝ) (t : List ℝ) (transition ringdown : Nat → ℝ) (r0 r1 : ℝ) : Prop where
  reached : ∃ z ∈ t, r0 < z ∧ r1 ≤ z
  mem0 : r0 ∈ t
  mem1 : r1 ∈ t
  nearest0 : ∀ u ∈ t, |r0 - tM| ≤ |u - tM|
  nearest1 : ∀ u ∈ t, |r1 - (r0 + 20)| ≤ |u - (r0 + 20)|
  early : ∀ k u, t[k]? = some u → u ≤ r0 → transition k = 0 ∧ ringdown k = 1
  late : ∀ k u, t[k]? = some u → r0 < u → r1 ≤ u → transition k = 1 ∧ ringdown k = 9 / 4 * Real.exp (-(u - tM) / (23 / 2))
  between : ∀ k u, t[k]? = some u → 0 ≤ transition k ∧ transition k ≤ 1 ∧ (r0 < u → ringdown k = (1 - transition k) + transition k * (9 / 4 * Real.exp (-(u - tM) / (23 / 2))))

theorem ring_spec (tM : ℝ) (t : List ℝ) (ht : t.Pairwise (· < ·)) (r : Ring) (h : ring tM t = .ok r) :
    r.transition = t.map (value r.t0 r.t1 0 1) ∧ (∃ z ∈ t, r.t0 < z ∧ r.t1 ≤ z) ∧ Ringing tM t (fun k => r.transition.getD k 0) (fun k => r.ringdown.getD k 0) r.t0 r.t1 := by
  have ht' : Sorted t := ht.imp le_of_lt
  unfold ring at h
  obtain ⟨i0, h1, h⟩ := Verif.Props.AbdFrame.bind_ok h
  obtain ⟨r0, h2, h⟩ := Verif.Props.AbdFrame.bind_ok h
  obtain ⟨i1, h3, h⟩ := Verif.Props.AbdFrame.bind_ok h
  obtain ⟨r1, h4, h⟩ := Verif.Props.AbdFrame.bind_ok h
  obtain ⟨⟨tr, z1, z2⟩, h5, h⟩ := Verif.Props.AbdFrame.bind_ok h
  have hr := Except.ok.inj h
  have e0 := get_ok h2
  have e1 := get_ok h4
  have etr := trans_list ht' h5
  have hend := reached h5
  dsimp only at etr
  obtain ⟨v0, hv0, hmin0, -⟩ := nearest_ok h1
  obtain ⟨v1, hv1, hmin1, -⟩ := nearest_ok h3
  rw [e0] at hv0
  rw [e1] at hv1
  injection hv0 with hv0
  injection hv1 with hv1
  rw [← hv0] at hmin0
  rw [← hv1] at hmin1
  have htr : ∀ k u, t[k]? = some u → tr.getD k 0 = value r0 r1 0 1 u := fun k u hk => by rw [etr, getD_map _ hk]
  have hrd : ∀ k u, t[k]? = some u → r.ringdown.getD k 0 = if u < r0 then 1 else 1 * (1 - tr.getD k 0) + 9 / 4 * Real.exp (-(u - tM) / (23 / 2)) * tr.getD k 0 := by
    intro k u hk
    have hkl := (List.getElem?_eq_some_iff.1 hk).1
    rw [← hr]
    dsimp only
    rw [getD_range _ _ hkl, getD_of hk]
    simp only [(strict ht hk e0).1]
  have et0 : r.t0 = r0 := by rw [← hr]
  have et1 : r.t1 = r1 := by rw [← hr]
  have ett : r.transition = tr := by rw [← hr]
  rw [et0, et1, ett]
  refine ⟨etr, hend, hend, List.mem_of_getElem? e0, List.mem_of_getElem? e1, hmin0, hmin1, ?_, ?_, ?_⟩
  · intro k u hk hu
    have e := htr k u hk
    rw [value, if_pos hu] at e
    refine ⟨e, ?_⟩
    rw [hrd k u hk, e]
    split_ifs <;> ring
  · intro k u hk hu hu1
    have e := htr k u hk
    rw [value, if_neg (not_le.2 hu), if_neg (not_lt.2 hu1)] at e
    refine ⟨e, ?_⟩
    rw [hrd k u hk, e, if_neg (not_lt.2 hu.le)]
    ring
  · intro k u hk
    have e := htr k u hk
    rw [value_share] at e
    have s1 := share_nonneg r0 r1 u
    have s2 := share_le_one r0 r1 u
    refine ⟨by rw [e]; linarith, by rw [e]; linarith, fun hu => ?_⟩
    rw [hrd k u hk, if_neg (not_lt.2 hu.le)]
    ring

/-- What is known about the frame: a constant rotation from the left, and the rotations about the `z` axis and the `x` axis. -/
structure Frame (E : Ext) (a : Args) (first : ℝ) (t : List ℝ) (F : List (Quaternion ℝ)) (phi transition prec op : Nat → ℝ) (r0 r1 : ℝ) (c : Quaternion ℝ) : Prop where
  length : F.length = t.length
  item : ∀ k < t.length, F[k]? = some (star c * frameAt (phi k) (a.nutationAngle.getD (a.openingAngle / 10) * transition k) (prec k) (op k))
  op_early : ∀ k u, t[k]? = some u → u ≤ r0 → op k = a.openingAngle + a.openingDot.getD (2 * a.openingAngle / (r1 - first)) * u
  op_late : ∃ x, ∀ k u, t[k]? = some u → r0 < u → r1 ≤ u → op k = x
  prec_early : ∀ k u, t[k]? = some u → u ≤ r0 → prec k = phi k / a.relativeRate
  prec_late : ∃ x, ∀ k u, t[k]? = some u → r0 < u → r1 ≤ u → prec k = x
  op_def : ∃ l, transitionToConstant E.integral (t.map fun u => a.openingAngle + a.openingDot.getD (2 * a.openingAngle / (r1 - first)) * u) t r0 r1 = .ok l ∧ ∀ k, op k = l.getD k 0

theorem some_getD {l : List ℝ} {k : Nat} {x : ℝ} (h : l[k]? = some x) : l.getD k 0 = x := getD_of h

theorem frame_spec (E : Ext) (hI : SameLength E.integral) (a : Args) (t phi : List ℝ) (ht : t.Pairwise (· < ·)) (hp : phi.length = t.length) (r : Ring) (hend : ∃ z ∈ t, r.t0 < z ∧ r.t1 ≤ z)
    (F : List (Quaternion ℝ)) (h : frame E a t phi r = .ok F) :
    ∃ (first : ℝ) (prec op : Nat → ℝ) (f0 : Quaternion ℝ), t[0]? = some first ∧
      f0 = frameAt (phi.getD 0 0) (a.nutationAngle.getD (a.openingAngle / 10) * r.transition.getD 0 0) (prec 0) (op 0) ∧
      Frame E a first t F (fun k => phi.getD k 0) (fun k => r.transition.getD k 0) prec op r.t0 r.t1 (E.qsqrt f0) := by
  have ht' : Sorted t := ht.imp le_of_lt
  unfold frame at h
  obtain ⟨first, h1, h⟩ := Verif.Props.AbdFrame.bind_ok h
  obtain ⟨op, h2, h⟩ := Verif.Props.AbdFrame.bind_ok h
  obtain ⟨prec, h3, h⟩ := Verif.Props.AbdFrame.bind_ok h
  obtain ⟨f0, h4, h⟩ := Verif.Props.AbdFrame.bind_ok h
  have hr := Except.ok.inj h
  have ef : t[0]? = some first := get_ok (i := 0) h1
  have hl : 0 < t.length := (List.getElem?_eq_some_iff.1 ef).1
  obtain ⟨lo, early2, x2, late2, -⟩ := Verif.Props.Transition.to_constant_reached E.integral hI _ t (by rw [List.length_map]) ht' r.t0 r.t1 hend op h2
  obtain ⟨lp, early3, x3, late3, -⟩ := Verif.Props.Transition.to_constant_reached E.integral hI _ t (by rw [List.length_map, hp]) ht' r.t0 r.t1 hend prec h3
  refine ⟨first, fun k => prec.getD k 0, fun k => op.getD k 0, f0, ef, ?_, ?_, fun k hk => ?_, fun k u hk hu => ?_, ⟨x2, fun k u hk h0 h1 => some_getD (late2 k u hk h0 h1)⟩, fun k u hk hu => ?_,
    ⟨x3, fun k u hk h0 h1 => some_getD (late3 k u hk h0 h1)⟩, op, h2, fun k => rfl⟩
  · have e : pyGet ((List.range t.length).map fun k : Nat => frameAt (phi.getD k 0) (a.nutationAngle.getD (a.openingAngle / 10) * r.transition.getD k 0) (prec.getD k 0) (op.getD k 0)) ((0 : Nat) : Int) =
        .ok (frameAt (phi.getD 0 0) (a.nutationAngle.getD (a.openingAngle / 10) * r.transition.getD 0 0) (prec.getD 0 0) (op.getD 0 0)) := by
      apply pyGet_nat
      rw [List.getElem?_map, List.getElem?_range hl]
      rfl
    rw [show ((0 : Nat) : Int) = 0 from rfl, h4] at e
    exact Except.ok.inj e
  · rw [← hr, List.length_map, List.length_map, List.length_range]
  · rw [← hr, List.getElem?_map, List.getElem?_map, List.getElem?_range hk]
    rfl
  · have := early2 k u hk hu
    rw [List.getElem?_map, hk] at this
    exact some_getD this
  · have := early3 k u hk hu
    have hk' : k < phi.length := by rw [hp]; exact (List.getElem?_eq_some_iff.1 hk).1
    rw [List.getElem?_map, List.getElem?_eq_getElem hk'] at this
    rw [some_getD this, List.getD_eq_getElem?_getD, List.getElem?_eq_getElem hk']
    rfl

theorem fill_spec (L : Int) (omega modulation : List ℝ) (q : ℝ) : ∀ (LM : List (Int × Int)) (data : Nat → Row ℂ), LM.Nodup → (∀ p ∈ LM, 2 ≤ p.1 ∧ p.1 ≤ L ∧ |p.2| ≤ p.1) →
    ∃ d, fill (totalSize 2 L) omega modulation q LM data = .ok d ∧ ∀ k ell m, |m| ≤ ell → d k (lmIndex ell m 2) =
      if (ell, m) ∈ LM then amplitude ell m (omega.getD k 0 ^ ((2 : ℝ) / 3)) q * ((1 + (m.sign : ℝ) * modulation.getD k 0 : ℝ) : ℂ) else data k (lmIndex ell m 2)
  | [], data, _, _ => ⟨data, rfl, fun k ell m _ => by rw [if_neg (by simp)]⟩
  | p :: LM, data, hn, hp => by
    obtain ⟨p1, p2, p3⟩ := hp p (by simp)
    have hn' := List.nodup_cons.1 hn
    have hc := Verif.Props.Samples.onColumn_mode (a := 2) (b := L) (by norm_num) p1 p2 p3 data (fun k _ => amplitude p.1 p.2 (omega.getD k 0 ^ ((2 : ℝ) / 3)) q * ((1 + (p.2.sign : ℝ) * modulation.getD k 0 : ℝ) : ℂ))
    obtain ⟨d, e, hd⟩ := fill_spec L omega modulation q LM _ hn'.2 (fun p' hp' => hp p' (List.mem_cons_of_mem _ hp'))
    refine ⟨d, ?_, fun k ell m hm => ?_⟩
    · unfold fill at e ⊢
      rw [List.foldlM_cons, hc, ok_bind]
      exact e
    · rw [hd k ell m hm, Verif.Props.Samples.set_mode p3 hm]
      by_cases h1 : (ell, m) = p
      · have h2 : (ell, m) ∉ LM := by rw [h1]; exact hn'.1
        rw [if_neg h2, if_pos (by rw [← h1]; exact ⟨rfl, rfl⟩), if_pos (by rw [h1]; simp), ← h1]
      · have h3 : ¬ (ell = p.1 ∧ m = p.2) := fun h => h1 (Prod.ext h.1 h.2)
        have h4 : (ell, m) ∈ p :: LM ↔ (ell, m) ∈ LM := by simp [List.mem_cons, h1]
        simp only [h4, if_neg h3]

/-! ## The waveform -/

/-- The symmetric mass ratio. -/
noncomputable def sym (q : ℝ) : ℝ := q / (1 + q) ^ 2

theorem sym_inv {q : ℝ} (hq : 0 < q) : sym (1 / q) = sym q := by
  unfold sym
  field_simp
  ring

theorem sym_pos {q : ℝ} (hq : 0 < q) : 0 < sym q := by
  unfold sym
  positivity

/-- The quantities from which the waveform is made: phase, frequency, share of the ringdown, factor of the ringdown, angles of the precession and of the opening, the times of the two transitions, the first frame. -/
structure Pieces where
  phi : Nat → ℝ
  omega : Nat → ℝ
  share : Nat → ℝ
  ringdown : Nat → ℝ
  prec : Nat → ℝ
  op : Nat → ℝ
  s0 : ℝ
  s1 : ℝ
  r0 : ℝ
  r1 : ℝ
  f0 : Quaternion ℝ

/-- How the waveform is made from the pieces. -/
structure Built (E : Ext) (a : Args) (w : Wave) (p : Pieces) : Prop where
  t : w.t = grid a
  frameType : w.frameType = 4
  dataType : w.dataType = Weights.h
  ellMin : w.ellMin = 2
  ellMax : w.ellMax = a.ellMax
  orbit : Orbit E (sym a.massRatio) (a.t1 - 100) w.t p.phi p.omega p.s0 p.s1
  ringing : Ringing (a.t1 - 100) w.t p.share p.ringdown p.r0 p.r1
  first : p.f0 = frameAt (p.phi 0) (a.nutationAngle.getD (a.openingAngle / 10) * p.share 0) (p.prec 0) (p.op 0)
  frame : Frame E a a.t0 w.t w.frame p.phi p.share p.prec p.op p.r0 p.r1 (E.qsqrt p.f0)
  modes : ∀ k u, w.t[k]? = some u → ∀ ell m, 2 ≤ ell → ell ≤ a.ellMax → |m| ≤ ell → modesAt w k ell m =
    amplitude ell m (p.omega k ^ ((2 : ℝ) / 3)) a.massRatio * ((1 + (m.sign : ℝ) * ((1 - p.share k) * Real.cos (p.phi k) / 40) : ℝ) : ℂ) * (p.ringdown k : ℂ)

theorem grid_strict (a : Args) (hd : 0 < a.dt) : (grid a).Pairwise (· < ·) := by
  rw [List.pairwise_iff_getElem]
  intro i j hi hj hij
  rw [grid_get a (List.getElem?_eq_getElem hi), grid_get a (List.getElem?_eq_getElem hj)]
  have : (i : ℝ) < j := by exact_mod_cast hij
  nlinarith

/-- C93: what the function returns in the corotating frame. -/
theorem corotating_spec (E : Ext) (hI : SameLength E.integral) (a : Args) (hd : 0 < a.dt) (hq : 0 < a.massRatio) (w : Wave) (h : corotating E a = .ok w) : ∃ p, Built E a w p := by
  unfold corotating at h
  simp only at h
  rw [show arange a.t0 (a.t1 + 99 / 100 * a.dt) a.dt = grid a from rfl] at h
  have ht := grid_strict a hd
  have ht' : Sorted (grid a) := ht.imp le_of_lt
  set q := if a.massRatio < 1 then 1 / a.massRatio else a.massRatio with hqd
  have enu : q / (1 + q) ^ 2 = sym a.massRatio := by
    rw [hqd]
    split_ifs
    · exact sym_inv hq
    · rfl
  have eamp : ∀ ell m x, amplitude ell m x q = amplitude ell m x a.massRatio := by
    intro ell m x
    rw [hqd]
    split_ifs
    · exact Verif.Props.PnAmplitude.mass_exchange ell m x a.massRatio hq
    · rfl
  rw [enu] at h
  obtain ⟨i, h1, h⟩ := Verif.Props.AbdFrame.bind_ok h
  split_ifs at h with hi hn
  obtain ⟨⟨phi, omega⟩, h2, h⟩ := Verif.Props.AbdFrame.bind_ok h
  obtain ⟨r, h3, h⟩ := Verif.Props.AbdFrame.bind_ok h
  obtain ⟨F, h4, h⟩ := Verif.Props.AbdFrame.bind_ok h
  obtain ⟨⟨tr, z1, z2⟩, h5, h⟩ := Verif.Props.AbdFrame.bind_ok h
  obtain ⟨d, h6, h⟩ := Verif.Props.AbdFrame.bind_ok h
  have hr := Except.ok.inj h
  obtain ⟨lp, lo, s0, s1, horb⟩ := orbital_spec E _ _ (sym_pos hq) (grid a) ht _ h2
  obtain ⟨etr0, hend, hring⟩ := ring_spec _ (grid a) ht r h3
  obtain ⟨first, prec, op, f0, e0, ef0, hframe⟩ := frame_spec E hI a (grid a) phi ht lp r hend F h4
  have ef : first = a.t0 := by
    have := grid_get a e0
    simpa using this
  rw [ef] at hframe
  have etr := trans_list ht' h5
  dsimp only at etr
  refine ⟨{ phi := fun k => phi.getD k 0, omega := fun k => omega.getD k 0, share := fun k => r.transition.getD k 0, ringdown := fun k => r.ringdown.getD k 0, prec := prec, op := op, s0 := s0, s1 := s1, r0 := r.t0, r1 := r.t1, f0 := f0 }, ?_⟩
  have ew : w.t = grid a := by rw [← hr]
  refine ⟨ew, by rw [← hr], by rw [← hr], by rw [← hr], by rw [← hr], by rw [ew]; exact horb, by rw [ew]; exact hring, ef0, by rw [ew, ← hr]; exact hframe, ?_⟩
  intro k u hk ell m h2l hlL hm
  rw [ew] at hk
  have hkl := (List.getElem?_eq_some_iff.1 hk).1
  obtain ⟨d', ed, hd'⟩ := fill_spec a.ellMax omega (List.zipWith (fun x p => x * Real.cos p / 40) tr phi) q (LMRange 2 a.ellMax) (fun _ _ => 0) (Verif.Props.Modes.LM_nodup 2 a.ellMax (by norm_num))
    (fun p hp => (Verif.Props.Modes.mem_LM 2 a.ellMax p.1 p.2).1 hp)
  rw [ed] at h6
  have edd := Except.ok.inj h6
  have emod : (List.zipWith (fun x p => x * Real.cos p / 40) tr phi).getD k 0 = (1 - r.transition.getD k 0) * Real.cos (phi.getD k 0) / 40 := by
    have hp : phi[k]? = some (phi.getD k 0) := by
      rw [List.getD_eq_getElem?_getD, List.getElem?_eq_getElem (by rw [lp]; exact hkl)]
      rfl
    have ht1 : tr[k]? = some (1 - r.transition.getD k 0) := by
      rw [etr, List.getElem?_map, hk, etr0, getD_map _ hk, Option.map_some, value_share, value_share]
      congr 1
      ring
    rw [List.getD_eq_getElem?_getD, List.getElem?_zipWith, hp, ht1]
    rfl
  have hmodes := hd' k ell m hm
  rw [if_pos ((Verif.Props.Modes.mem_LM 2 a.ellMax ell m).2 ⟨h2l, hlL, hm⟩), emod, eamp, edd] at hmodes
  unfold modesAt
  rw [← hr]
  dsimp only
  rw [hmodes]

/-- C93: which of the two masses is the larger one does not matter. -/
theorem exchange (E : Ext) (toInertial : Wave → Py Wave) (a : Args) (hq : 0 < a.massRatio) : fakePrecessing E toInertial { a with massRatio := 1 / a.massRatio } = fakePrecessing E toInertial a := by
  have e : (if 1 / a.massRatio < 1 then 1 / (1 / a.massRatio) else 1 / a.massRatio) = if a.massRatio < 1 then 1 / a.massRatio else a.massRatio := by
    rcases lt_trichotomy a.massRatio 1 with h | h | h
    · rw [if_pos h, if_neg]
      rw [not_lt, one_le_div hq]
      exact h.le
    · rw [h]
      norm_num
    · rw [if_neg (not_lt.2 h.le), if_pos, one_div_one_div]
      rw [div_lt_one hq]
      exact h
  unfold fakePrecessing corotating
  simp only [e]
  rfl

/-! ## The modes -/

section modes
variable {E : Ext} {a : Args} {w : Wave} {p : Pieces} (b : Built E a w p)
include b

theorem share_mem {k : Nat} {u : ℝ} (hk : w.t[k]? = some u) : 0 ≤ p.share k ∧ p.share k ≤ 1 := by
  obtain ⟨h1, h2, -⟩ := b.ringing.between k u hk
  exact ⟨h1, h2⟩

/-- C93: the modes are those of an orbit that is symmetric under reflection, times a factor that is `1 + x` for `m > 0` and `1 - x` for `m < 0` with `x` at most 1/40; after the transition to the ringdown, `x` is 0. -/
theorem antisymmetric {k : Nat} {u : ℝ} (hk : w.t[k]? = some u) : ∃ (A : Int → Int → ℂ) (x : ℝ), |x| ≤ 1 / 40 ∧ (p.r0 < u → p.r1 ≤ u → x = 0) ∧
    ∀ ell m, 2 ≤ ell → ell ≤ a.ellMax → |m| ≤ ell → A ell (-m) = (-1) ^ ell * (starRingEnd ℂ) (A ell m) ∧ modesAt w k ell m = A ell m * ((1 + (m.sign : ℝ) * x : ℝ) : ℂ) := by
  obtain ⟨h1, h2⟩ := share_mem b hk
  refine ⟨fun ell m => amplitude ell m (p.omega k ^ ((2 : ℝ) / 3)) a.massRatio * (p.ringdown k : ℂ), (1 - p.share k) * Real.cos (p.phi k) / 40, ?_, ?_, ?_⟩
  · rw [abs_div, abs_mul, abs_of_nonneg (by linarith : 0 ≤ 1 - p.share k), abs_of_pos (by norm_num : (0 : ℝ) < 40)]
    have := Real.abs_cos_le_one (p.phi k)
    have : (1 - p.share k) * |Real.cos (p.phi k)| ≤ 1 := mul_le_one₀ (by linarith) (abs_nonneg _) this
    linarith
  · intro h3 h4
    rw [(b.ringing.late k u hk h3 h4).1]
    ring
  · intro ell m h3 h4 h5
    refine ⟨?_, ?_⟩
    · have := Verif.Props.PnAmplitude.symmetry ell (-m) h3 (p.omega k ^ ((2 : ℝ) / 3)) a.massRatio
      rw [neg_neg] at this
      dsimp only
      rw [this, map_mul, Complex.conj_ofReal]
      ring
    · rw [b.modes k u hk ell m h3 h4 h5]
      ring

/-- C93: from the end of the transition to the ringdown on, the modes have the symmetry under reflection of a binary that does not precess. -/
theorem symmetric_after {k : Nat} {u : ℝ} (hk : w.t[k]? = some u) (h0 : p.r0 < u) (h1 : p.r1 ≤ u) (ell m : Int) (h2 : 2 ≤ ell) (h3 : ell ≤ a.ellMax) (hm : |m| ≤ ell) :
    modesAt w k ell (-m) = (-1) ^ ell * (starRingEnd ℂ) (modesAt w k ell m) := by
  obtain ⟨A, x, -, hx, hA⟩ := antisymmetric b hk
  have hm' : |-m| ≤ ell := by rwa [abs_neg]
  rw [(hA ell m h2 h3 hm).2, (hA ell (-m) h2 h3 hm').2, hx h0 h1, (hA ell m h2 h3 hm).1]
  simp

/-- C93: the modes with `m = 0` vanish. -/
theorem zero_modes {k : Nat} {u : ℝ} (hk : w.t[k]? = some u) (ell : Int) (h2 : 2 ≤ ell) (h3 : ell ≤ a.ellMax) : modesAt w k ell 0 = 0 := by
  rw [b.modes k u hk ell 0 h2 h3 (by rw [abs_zero]; omega), Verif.Props.PnAmplitude.m_zero ell h2]
  simp

theorem after_merger {k : Nat} {u : ℝ} (hk : w.t[k]? = some u) (h0 : p.r0 < u) : p.s1 ≤ u := by
  obtain ⟨i, hi⟩ := List.getElem?_of_mem b.ringing.mem0
  by_contra hlt
  obtain ⟨h1, h2⟩ : p.r0 < p.s1 ∧ p.s1 < a.t1 - 100 := ⟨by linarith, b.orbit.before⟩
  have := b.ringing.nearest0 u (List.mem_of_getElem? hk)
  rw [abs_of_neg (by linarith), abs_of_neg (by linarith)] at this
  linarith

/-- C93: the ringdown: from the end of the transition on, every mode decays exponentially, with the time scale 11.5 and a constant phase in the corotating frame. -/
theorem decay {k k' : Nat} {u u' : ℝ} (hk : w.t[k]? = some u) (hk' : w.t[k']? = some u') (h0 : p.r0 < u) (h1 : p.r1 ≤ u) (h0' : p.r0 < u') (h1' : p.r1 ≤ u') (ell m : Int) (h2 : 2 ≤ ell) (h3 : ell ≤ a.ellMax)
    (hm : |m| ≤ ell) : modesAt w k' ell m = modesAt w k ell m * (Real.exp (-(u' - u) / (23 / 2)) : ℂ) := by
  obtain ⟨e1, e2⟩ := b.ringing.late k u hk h0 h1
  obtain ⟨e1', e2'⟩ := b.ringing.late k' u' hk' h0' h1'
  rw [b.modes k u hk ell m h2 h3 hm, b.modes k' u' hk' ell m h2 h3 hm, e1, e1', e2, e2', b.orbit.late k u hk (after_merger b hk h0), b.orbit.late k' u' hk' (after_merger b hk' h0')]
  have e : Real.exp (-(u' - (a.t1 - 100)) / (23 / 2)) = Real.exp (-(u - (a.t1 - 100)) / (23 / 2)) * Real.exp (-(u' - u) / (23 / 2)) := by
    rw [← Real.exp_add]
    congr 1
    ring
  rw [e]
  push_cast
  ring

/-- C93: up to the merger, the modes are those of the orbit, with the modulation by the phase. -/
theorem before_merger {k : Nat} {u : ℝ} (hk : w.t[k]? = some u) (h0 : u ≤ p.r0) (ell m : Int) (h2 : 2 ≤ ell) (h3 : ell ≤ a.ellMax) (hm : |m| ≤ ell) :
    modesAt w k ell m = amplitude ell m (p.omega k ^ ((2 : ℝ) / 3)) a.massRatio * ((1 + (m.sign : ℝ) * (Real.cos (p.phi k) / 40) : ℝ) : ℂ) := by
  obtain ⟨e1, e2⟩ := b.ringing.early k u hk h0
  rw [b.modes k u hk ell m h2 h3 hm, e1, e2]
  simp

end modes

/-! ## The frame -/

open Verif.AbdTransform (rotateVec)
open Verif.Props.AbdTransform (rotateVec_mul)

theorem rotZ (x : ℝ) (v : Fin 3 → ℝ) : rotateVec (expZ x) v = ![Real.cos x * v 0 - Real.sin x * v 1, Real.sin x * v 0 + Real.cos x * v 1, v 2] := by
  have c : Real.cos x = Real.cos (x / 2) ^ 2 - Real.sin (x / 2) ^ 2 := by
    rw [← Real.cos_two_mul', mul_div_cancel₀ _ (two_ne_zero)]
  have s : Real.sin x = 2 * Real.sin (x / 2) * Real.cos (x / 2) := by
    rw [← Real.sin_two_mul, mul_div_cancel₀ _ (two_ne_zero)]
  have one := Real.sin_sq_add_cos_sq (x / 2)
  have q0 : (expZ x).re = Real.cos (x / 2) := rfl
  have qI : (expZ x).imI = 0 := rfl
  have qJ : (expZ x).imJ = 0 := rfl
  have qK : (expZ x).imK = Real.sin (x / 2) := rfl
  funext i
  fin_cases i
  · change rotateVec (expZ x) v 0 = Real.cos x * v 0 - Real.sin x * v 1
    rw [Verif.Lemmas.Bms.rotateVec_0, q0, qI, qJ, qK, c, s]
    linear_combination 0 * one
  · change rotateVec (expZ x) v 1 = Real.sin x * v 0 + Real.cos x * v 1
    rw [Verif.Lemmas.Bms.rotateVec_1, q0, qI, qJ, qK, c, s]
    linear_combination 0 * one
  · change rotateVec (expZ x) v 2 = v 2
    rw [Verif.Lemmas.Bms.rotateVec_2, q0, qI, qJ, qK]
    linear_combination v 2 * one

theorem rotX (x : ℝ) (v : Fin 3 → ℝ) : rotateVec (expX x) v = ![v 0, Real.cos x * v 1 - Real.sin x * v 2, Real.sin x * v 1 + Real.cos x * v 2] := by
  have c : Real.cos x = Real.cos (x / 2) ^ 2 - Real.sin (x / 2) ^ 2 := by
    rw [← Real.cos_two_mul', mul_div_cancel₀ _ (two_ne_zero)]
  have s : Real.sin x = 2 * Real.sin (x / 2) * Real.cos (x / 2) := by
    rw [← Real.sin_two_mul, mul_div_cancel₀ _ (two_ne_zero)]
  have one := Real.sin_sq_add_cos_sq (x / 2)
  have q0 : (expX x).re = Real.cos (x / 2) := rfl
  have qI : (expX x).imI = Real.sin (x / 2) := rfl
  have qJ : (expX x).imJ = 0 := rfl
  have qK : (expX x).imK = 0 := rfl
  funext i
  fin_cases i
  · change rotateVec (expX x) v 0 = v 0
    rw [Verif.Lemmas.Bms.rotateVec_0, q0, qI, qJ, qK]
    linear_combination v 0 * one
  · change rotateVec (expX x) v 1 = Real.cos x * v 1 - Real.sin x * v 2
    rw [Verif.Lemmas.Bms.rotateVec_1, q0, qI, qJ, qK, c, s]
    linear_combination 0 * one
  · change rotateVec (expX x) v 2 = Real.sin x * v 1 + Real.cos x * v 2
    rw [Verif.Lemmas.Bms.rotateVec_2, q0, qI, qJ, qK, c, s]
    linear_combination 0 * one

theorem star_expZ (x : ℝ) : star (expZ x) = expZ (-x) := by
  refine Quaternion.ext _ _ ?_ ?_ ?_ ?_
  · rw [Quaternion.re_star]
    change Real.cos (x / 2) = Real.cos (-x / 2)
    rw [neg_div, Real.cos_neg]
  · rw [Quaternion.imI_star]
    change -(0 : ℝ) = 0
    exact neg_zero
  · rw [Quaternion.imJ_star]
    change -(0 : ℝ) = 0
    exact neg_zero
  · rw [Quaternion.imK_star]
    change -Real.sin (x / 2) = Real.sin (-x / 2)
    rw [neg_div, Real.sin_neg]

theorem expX_zero : expX 0 = 1 := by
  refine Quaternion.ext _ _ ?_ ?_ ?_ ?_
  · change Real.cos (0 / 2) = 1
    rw [zero_div, Real.cos_zero]
  · change Real.sin (0 / 2) = 0
    rw [zero_div, Real.sin_zero]
  · rfl
  · rfl

theorem unit_expZ (x : ℝ) : Quaternion.normSq (expZ x) = 1 := by
  rw [Quaternion.normSq_def']
  simp only [expZ]
  linear_combination Real.sin_sq_add_cos_sq (x / 2)

theorem unit_expX (x : ℝ) : Quaternion.normSq (expX x) = 1 := by
  rw [Quaternion.normSq_def']
  simp only [expX]
  linear_combination Real.sin_sq_add_cos_sq (x / 2)

theorem unit_frameAt (orb nut prec op : ℝ) : Quaternion.normSq (frameAt orb nut prec op) = 1 := by
  unfold frameAt
  simp only [map_mul, star_expZ, unit_expZ, unit_expX, mul_one]

/-- The direction of the `z` axis without nutation. -/
theorem axis_cone (orb prec op : ℝ) : zAxis (frameAt orb 0 prec op) = cone op prec := by
  unfold zAxis frameAt cone
  simp only [rotateVec_mul, star_expZ, rotZ, rotX]
  funext i
  have s := Real.sin_sq_add_cos_sq orb
  fin_cases i
  · simp
    linear_combination (Real.sin op * Real.sin prec) * s
  · simp
    linear_combination (-Real.sin op * Real.cos prec) * s
  · simp

/-- The direction of the `z` axis without an opening angle. -/
theorem axis_nutation (orb nut prec : ℝ) : zAxis (frameAt orb nut prec 0) = cone nut orb := by
  unfold zAxis frameAt cone
  simp only [rotateVec_mul, star_expZ, rotZ, rotX]
  funext i
  fin_cases i <;> simp [mul_comm]

/-- What is assumed of the square root of a quaternion. -/
def Root (E : Ext) : Prop := ∀ q, Quaternion.normSq q = 1 → E.qsqrt q * E.qsqrt q = q ∧ Quaternion.normSq (E.qsqrt q) = 1

section frame
variable {E : Ext} {a : Args} {w : Wave} {p : Pieces} (b : Built E a w p)
include b

/-- C93: there is one frame for each time, and all of them are unit quaternions. -/
theorem unit_frames (hs : Root E) : w.frame.length = w.t.length ∧ ∀ F ∈ w.frame, Quaternion.normSq F = 1 := by
  refine ⟨b.frame.length, fun F hF => ?_⟩
  obtain ⟨k, hk⟩ := List.getElem?_of_mem hF
  have hkl : k < w.t.length := by
    rw [← b.frame.length]
    exact (List.getElem?_eq_some_iff.1 hk).1
  have := b.frame.item k hkl
  rw [hk, Option.some.injEq] at this
  have hf : Quaternion.normSq p.f0 = 1 := by rw [b.first]; exact unit_frameAt _ _ _ _
  rw [this, map_mul, unit_frameAt, Quaternion.normSq_star, (hs _ hf).2, mul_one]

/-- C93: the first frame is the square root of what it would be without the last step. -/
theorem first_frame (hs : Root E) (h0 : 0 < w.t.length) : w.frame[0]? = some (E.qsqrt p.f0) := by
  have hf : Quaternion.normSq p.f0 = 1 := by rw [b.first]; exact unit_frameAt _ _ _ _
  rw [b.frame.item 0 h0, ← b.first]
  obtain ⟨e1, e2⟩ := hs _ hf
  congr 1
  calc star (E.qsqrt p.f0) * p.f0 = star (E.qsqrt p.f0) * (E.qsqrt p.f0 * E.qsqrt p.f0) := by rw [e1]
    _ = star (E.qsqrt p.f0) * E.qsqrt p.f0 * E.qsqrt p.f0 := (mul_assoc _ _ _).symm
    _ = E.qsqrt p.f0 := by rw [Quaternion.star_mul_self, e2, Quaternion.coe_one, one_mul]

/-- C93: up to the merger, the direction of the orbit goes around a cone.  Up to a constant rotation, the angle of the cone is the opening angle plus its rate times the time, and the angle around the cone is the phase *divided by*
`precession_relative_rate`; there is no nutation. -/
theorem precession {k : Nat} {u : ℝ} (hk : w.t[k]? = some u) (h0 : u ≤ p.r0) (F : Quaternion ℝ) (hF : w.frame[k]? = some F) :
    zAxis F = rotateVec (star (E.qsqrt p.f0)) (cone (a.openingAngle + a.openingDot.getD (2 * a.openingAngle / (p.r1 - a.t0)) * u) (p.phi k / a.relativeRate)) := by
  have hkl := (List.getElem?_eq_some_iff.1 hk).1
  have e := b.frame.item k hkl
  rw [hF, Option.some.injEq] at e
  rw [e, (b.ringing.early k u hk h0).1, mul_zero, b.frame.prec_early k u hk h0, b.frame.op_early k u hk h0, ← axis_cone (p.phi k)]
  unfold zAxis
  rw [rotateVec_mul]

/-- C93: with the default, the orbit precesses 10 times faster than it turns, and not 10 times slower. -/
theorem precession_fast (hr : a.relativeRate = 1 / 10) {k : Nat} {u : ℝ} (hk : w.t[k]? = some u) (h0 : u ≤ p.r0) (F : Quaternion ℝ) (hF : w.frame[k]? = some F) :
    zAxis F = rotateVec (star (E.qsqrt p.f0)) (cone (a.openingAngle + a.openingDot.getD (2 * a.openingAngle / (p.r1 - a.t0)) * u) (10 * p.phi k)) := by
  rw [precession b hk h0 F hF, hr]
  congr 2
  ring

/-- C93: from the end of the transition to the ringdown on, the direction is turned by the angle of the nutation about an axis that turns with the phase, for ever. -/
theorem axis_late : ∃ n : Fin 3 → ℝ, ∀ (k : Nat) (u : ℝ) (F : Quaternion ℝ), w.t[k]? = some u → p.r0 < u → p.r1 ≤ u → w.frame[k]? = some F →
    zAxis F = rotateVec (star (E.qsqrt p.f0)) (rotateVec (expZ (p.phi k) * expX (a.nutationAngle.getD (a.openingAngle / 10)) * star (expZ (p.phi k))) n) := by
  obtain ⟨x, hx⟩ := b.frame.op_late
  obtain ⟨y, hy⟩ := b.frame.prec_late
  refine ⟨cone x y, fun k u F hk h0 h1 hF => ?_⟩
  have hkl := (List.getElem?_eq_some_iff.1 hk).1
  have e := b.frame.item k hkl
  rw [hF, Option.some.injEq] at e
  rw [e, (b.ringing.late k u hk h0 h1).1, mul_one, hx k u hk h0 h1, hy k u hk h0 h1, ← axis_cone (p.phi k)]
  unfold zAxis
  rw [rotateVec_mul, ← rotateVec_mul (expZ (p.phi k) * expX _ * star (expZ (p.phi k)))]
  congr 2
  unfold frameAt
  have e1 : expZ (p.phi k) * star (expZ (p.phi k)) = 1 := by
    rw [Quaternion.self_mul_star, unit_expZ, Quaternion.coe_one]
  rw [expX_zero, mul_one, e1, one_mul]
  simp only [mul_assoc]

end frame

/-! ## Where the waveform differs from its description -/

/-- The integral of 0 is 0. -/
def ZeroIntegral (E : Ext) : Prop := ∀ g s I, (∀ x ∈ g, x = 0) → E.integral g s = .ok I → ∀ x ∈ I, x = 0

theorem to_constant_zero (E : Ext) (hI : SameLength E.integral) (hz : ZeroIntegral E) (f t : List ℝ) (hf : f.length = t.length) (hf0 : ∀ x ∈ f, x = 0) (ht : Sorted t) (t1 t2 first : ℝ) (h0 : t[0]? = some first)
    (hfirst : first ≤ t1) (hend : ∃ z ∈ t, t1 < z ∧ t2 ≤ z) (y : List ℝ) (h : transitionToConstant E.integral f t t1 t2 = .ok y) : ∀ k < t.length, y[k]? = some 0 := by
  obtain ⟨i1, i2, I, c, h12, h2t, hl, hk, hint, hlo, hmid, hhi, hc⟩ := Verif.Props.Transition.to_constant_parts E.integral hI f t hf ht t1 t2 hend y h
  have hI0 : ∀ x ∈ I, x = 0 := by
    refine hz _ _ I (fun x hx => ?_) hint
    obtain ⟨i, hi, rfl⟩ := List.getElem_of_mem hx
    rw [List.getElem_zipWith]
    have := hf0 _ (List.mem_of_mem_drop (List.mem_of_mem_take (List.getElem_mem (l := (f.drop i1).take (i2 - i1)) (n := i) (by rw [List.length_zipWith] at hi; omega))))
    rw [this, zero_mul]
  have hbefore : ∀ k < i2, y[k]? = some 0 := by
    intro k hk2
    by_cases hk1 : k < i1
    · rw [hlo k hk1]
      have hkl : k < f.length := by omega
      rw [List.getElem?_eq_getElem hkl, hf0 _ (List.getElem_mem hkl)]
    · obtain ⟨u, z, x, e1, e2, e3, e4⟩ := hmid k (by omega) hk2
      rw [e4, hf0 u (List.mem_of_getElem? e1), hI0 x (List.mem_of_getElem? e3)]
      simp
  have hi2 : 0 < i2 := ((hk 0 first h0).2).2 (Or.inl hfirst)
  have hc0 : c = 0 := by
    have := hc hi2
    rw [hbefore (i2 - 1) (by omega)] at this
    exact (Option.some.inj this).symm
  intro k hkl
  by_cases h' : k < i2
  · exact hbefore k h'
  · rw [hhi k (by omega) hkl, hc0]

/-- The first time is not after the merger. -/
theorem first_early {E : Ext} {a : Args} {w : Wave} {p : Pieces} (b : Built E a w p) (hd : 0 < a.dt) : a.t0 ≤ p.r0 := by
  have hm := b.ringing.mem0
  rw [b.t] at hm
  obtain ⟨k, hk⟩ := List.getElem?_of_mem hm
  have := grid_get a hk
  have hk0 : (0 : ℝ) ≤ k := Nat.cast_nonneg k
  nlinarith

/-- C93: the function does not nutate before the merger, and it nutates for ever after it: without precession, the direction is constant up to the merger, and from the end of the transition on it goes around a cone with the
angle of the nutation, once in each orbit. -/
theorem nutates_after {E : Ext} {a : Args} {w : Wave} {p : Pieces} (b : Built E a w p) (hI : SameLength E.integral) (hz : ZeroIntegral E) (hd : 0 < a.dt) (ho : a.openingAngle = 0) (hdot : a.openingDot.getD 0 = 0) (nut : ℝ)
    (hn : a.nutationAngle = some nut) (k : Nat) (u : ℝ) (F : Quaternion ℝ) (hk : w.t[k]? = some u) (hF : w.frame[k]? = some F) :
    (u ≤ p.r0 → zAxis F = rotateVec (star (E.qsqrt p.f0)) ![0, 0, 1]) ∧ (p.r0 < u → p.r1 ≤ u → zAxis F = rotateVec (star (E.qsqrt p.f0)) (cone nut (p.phi k))) := by
  have hkl := (List.getElem?_eq_some_iff.1 hk).1
  have edot : a.openingDot.getD (2 * a.openingAngle / (p.r1 - a.t0)) = 0 := by
    rw [ho, mul_zero, zero_div]
    exact hdot
  obtain ⟨l, hl, hop⟩ := b.frame.op_def
  have h0 : w.t[0]? = some a.t0 := first_get a b.t (by omega)
  have hs : Sorted w.t := by rw [b.t]; exact grid_sorted a hd
  have hzero := to_constant_zero E hI hz _ w.t (by rw [List.length_map]) (fun x hx => by
    obtain ⟨u, -, rfl⟩ := List.mem_map.1 hx
    rw [edot, ho]
    ring) hs p.r0 p.r1 a.t0 h0 (first_early b hd) b.ringing.reached l hl k hkl
  have eop : p.op k = 0 := by rw [hop k, some_getD hzero]
  have e := b.frame.item k hkl
  rw [hF, Option.some.injEq, eop, hn, Option.getD_some] at e
  refine ⟨fun hu => ?_, fun hu0 hu1 => ?_⟩
  · rw [(b.ringing.early k u hk hu).1, mul_zero] at e
    have := axis_cone (p.phi k) (p.prec k) 0
    unfold zAxis at this ⊢
    rw [e, rotateVec_mul, this]
    congr 1
    unfold cone
    simp
  · rw [(b.ringing.late k u hk hu0 hu1).1, mul_one] at e
    have := axis_nutation (p.phi k) nut (p.prec k)
    unfold zAxis at this ⊢
    rw [e, rotateVec_mul, this]

/-- The angle around the cone is determined by the direction. -/
theorem cone_inj {o p p' : ℝ} (ho : Real.sin o ≠ 0) (h : cone o p = cone o p') : Real.cos p = Real.cos p' ∧ Real.sin p = Real.sin p' := by
  have h0 := congrFun h 0
  have h1 := congrFun h 1
  simp only [cone, Matrix.cons_val_zero, Matrix.cons_val_one] at h0 h1
  exact ⟨mul_left_cancel₀ ho (neg_injective h1), mul_left_cancel₀ ho h0⟩

theorem rotateVec_inj {c : Quaternion ℝ} (hc : Quaternion.normSq c = 1) {v v' : Fin 3 → ℝ} (h : rotateVec c v = rotateVec c v') : v = v' := by
  have e : ∀ v, rotateVec (star c) (rotateVec c v) = v := by
    intro v
    rw [← rotateVec_mul, Quaternion.star_mul_self, hc, Quaternion.coe_one]
    exact Verif.Props.AbdTransform.rotateVec_one v
  rw [← e v, h, e v']

/-- C93: so the direction does not settle down after the merger, contrary to the description: at two times after the transition it is the same only if the phases are the same. -/
theorem not_settled {E : Ext} {a : Args} {w : Wave} {p : Pieces} (b : Built E a w p) (hs : Root E) (hI : SameLength E.integral) (hz : ZeroIntegral E) (hd : 0 < a.dt) (ho : a.openingAngle = 0) (hdot : a.openingDot.getD 0 = 0) (nut : ℝ)
    (hn : a.nutationAngle = some nut) (hsin : Real.sin nut ≠ 0) (k k' : Nat) (u u' : ℝ) (F F' : Quaternion ℝ) (hk : w.t[k]? = some u) (hF : w.frame[k]? = some F) (hk' : w.t[k']? = some u') (hF' : w.frame[k']? = some F')
    (h0 : p.r0 < u) (h1 : p.r1 ≤ u) (h0' : p.r0 < u') (h1' : p.r1 ≤ u') (heq : zAxis F = zAxis F') : Real.cos (p.phi k) = Real.cos (p.phi k') ∧ Real.sin (p.phi k) = Real.sin (p.phi k') := by
  rw [(nutates_after b hI hz hd ho hdot nut hn k u F hk hF).2 h0 h1, (nutates_after b hI hz hd ho hdot nut hn k' u' F' hk' hF').2 h0' h1'] at heq
  have hf : Quaternion.normSq p.f0 = 1 := by rw [b.first]; exact unit_frameAt _ _ _ _
  exact cone_inj hsin (rotateVec_inj (by rw [Quaternion.normSq_star, (hs _ hf).2]) heq)

/-- The times of the transition to the ringdown. -/
theorem transition_times {E : Ext} {a : Args} {w : Wave} {p : Pieces} (b : Built E a w p) (hd : 0 < a.dt) (hd20 : a.dt ≤ 20) (h0 : a.t0 ≤ a.t1 - 100) : |p.r0 - (a.t1 - 100)| ≤ a.dt / 2 ∧ |p.r1 - (p.r0 + 20)| ≤ a.dt / 2 := by
  obtain ⟨n, -, hg, hl, -⟩ := times a hd (by linarith)
  have key : ∀ x r, r ∈ w.t → (∀ u ∈ w.t, |r - x| ≤ |u - x|) → a.t0 ≤ x → x ≤ a.t0 + n * a.dt → |r - x| ≤ a.dt / 2 := by
    intro x r hr hmin hx0 hx1
    rw [b.t] at hr hmin
    obtain ⟨i, hi, hne⟩ := Verif.Props.AbdFrame.nearest_spec (grid a) x (List.ne_nil_of_mem hr)
    obtain ⟨v, hv, hvm, hvf⟩ := hne
    have := near_grid a hd n hg x hx0 hx1 ⟨v, hv, hvm, hvf⟩ hv
    exact (hmin v (List.mem_of_getElem? hv)).trans this
  have k0 := key _ _ b.ringing.mem0 b.ringing.nearest0 h0 (by linarith)
  have := abs_le.1 k0
  exact ⟨k0, key _ _ b.ringing.mem1 b.ringing.nearest1 (by linarith [first_early b hd]) (by linarith)⟩

/-- C93: if the times are negative, the cone does not open: by default the angle of the cone starts with a negative value, so that the cone closes first. -/
theorem opening_negative {E : Ext} {a : Args} {w : Wave} {p : Pieces} (b : Built E a w p) (hd : 0 < a.dt) (hd20 : a.dt ≤ 20) (h0 : a.t0 ≤ a.t1 - 100) (h1 : a.t1 ≤ 0) (hdot : a.openingDot = none) (ho : 0 < a.openingAngle) :
    p.op 0 < -a.openingAngle := by
  obtain ⟨e0, e1⟩ := transition_times b hd hd20 h0
  have e0 := abs_le.1 e0
  have e1 := abs_le.1 e1
  have hlen : 0 < w.t.length := List.length_pos_of_mem b.ringing.mem0
  have ht0 : w.t[0]? = some a.t0 := first_get a b.t hlen
  rw [b.frame.op_early 0 a.t0 ht0 (first_early b hd), hdot, Option.getD_none]
  have hpos : 0 < p.r1 - a.t0 := by linarith [first_early b hd]
  have : 2 * a.openingAngle / (p.r1 - a.t0) * a.t0 < -(2 * a.openingAngle) := by
    rw [div_mul_eq_mul_div, div_lt_iff₀ hpos]
    nlinarith
  linarith

/-- C93: by default the rate at which the cone opens is not the one of the description, which has the time of the merger in place of the end of the transition 20 later. -/
theorem opening_rate {E : Ext} {a : Args} {w : Wave} {p : Pieces} (b : Built E a w p) (hd : 0 < a.dt) (hd20 : a.dt < 20) (h0 : a.t0 < a.t1 - 100) (ho : 0 < a.openingAngle) :
    2 * a.openingAngle / (p.r1 - a.t0) < 2 * a.openingAngle / (a.t1 - 100 - a.t0) := by
  obtain ⟨e0, e1⟩ := transition_times b hd hd20.le h0.le
  have e0 := abs_le.1 e0
  have e1 := abs_le.1 e1
  exact div_lt_div_of_pos_left (by linarith) (by linarith) (by linarith)

/-! ## The frequency -/

/-- C93: the frequency is the derivative of the phase. -/
theorem phase_rate (nu tM u : ℝ) (hnu : 0 < nu) (hu : u < tM) : HasDerivAt (phi0 nu tM) (omega0 nu tM u) u := by
  have ht := (tau_pos hnu).2 hu
  have h1 : HasDerivAt (tau nu tM) (-(nu / 5)) u := by
    have := (((hasDerivAt_id u).const_sub tM).const_mul nu).div_const 5
    exact this.congr_deriv (by ring)
  have h2 := (h1.rpow_const (p := (5 : ℝ) / 8) (Or.inl ht.ne')).const_mul (-4 : ℝ)
  refine h2.congr_deriv ?_
  unfold omega0
  rw [show (5 : ℝ) / 8 - 1 = -3 / 8 by norm_num]
  ring

/-- The rate at which the frequency changes. -/
theorem frequency_rate (nu tM u : ℝ) (hnu : 0 < nu) (hu : u < tM) : HasDerivAt (omega0 nu tM) (96 / 5 * nu * (4 * nu) ^ (-(8 : ℝ) / 3) * omega0 nu tM u ^ ((11 : ℝ) / 3)) u := by
  have ht := (tau_pos hnu).2 hu
  have h1 : HasDerivAt (tau nu tM) (-(nu / 5)) u := by
    have := (((hasDerivAt_id u).const_sub tM).const_mul nu).div_const 5
    exact this.congr_deriv (by ring)
  have h2 := (h1.rpow_const (p := -(3 : ℝ) / 8) (Or.inl ht.ne')).const_mul (nu / 2)
  refine h2.congr_deriv ?_
  unfold omega0
  generalize tau nu tM u = T at ht ⊢
  rw [Real.mul_rpow (x := nu / 2) (by positivity) (by positivity), ← Real.rpow_mul ht.le, show -(3 : ℝ) / 8 * (11 / 3) = -3 / 8 - 1 by norm_num]
  have e : (nu / 2) ^ ((11 : ℝ) / 3) = (4 * nu) ^ ((11 : ℝ) / 3) * (1 / 8) ^ ((11 : ℝ) / 3) := by
    rw [← Real.mul_rpow (by positivity) (by positivity)]
    congr 1
    ring
  have e8 : ((1 : ℝ) / 8) ^ ((11 : ℝ) / 3) = 1 / 2048 := by
    rw [show (1 : ℝ) / 8 = (1 / 2) ^ (3 : ℝ) by norm_num, ← Real.rpow_mul (by norm_num), show (3 : ℝ) * (11 / 3) = ((11 : ℕ) : ℝ) by norm_num, Real.rpow_natCast]
    norm_num
  have e4 : (4 * nu) ^ (-(8 : ℝ) / 3) * (4 * nu) ^ ((11 : ℝ) / 3) = 4 * nu := by
    rw [← Real.rpow_add (by positivity), show -(8 : ℝ) / 3 + 11 / 3 = 1 by norm_num, Real.rpow_one]
  rw [e, e8]
  linear_combination (-96 / 5 * nu * (1 / 2048) * T ^ (-(3 : ℝ) / 8 - 1)) * e4

/-- C93: the frequency obeys the leading order of post-Newtonian theory only if the masses are the same. -/
theorem chirp_iff (q tM u : ℝ) (hq : 0 < q) (hu : u < tM) : Chirp (sym q) (omega0 (sym q) tM) u ↔ q = 1 := by
  have hnu := sym_pos hq
  have h := frequency_rate (sym q) tM u hnu hu
  have hw : 0 < omega0 (sym q) tM u := by
    have ht := (tau_pos hnu).2 hu
    unfold omega0
    positivity
  have h4 : sym q = 1 / 4 ↔ q = 1 := by
    unfold sym
    constructor
    · intro e
      have : (q - 1) ^ 2 = 0 := by
        rw [div_eq_iff (by positivity)] at e
        linarith
      have := pow_eq_zero_iff (two_ne_zero) |>.1 this
      linarith
    · rintro rfl
      norm_num
  unfold Chirp
  rw [← h4]
  constructor
  · intro hc
    have e := hc.unique h
    have hp : 0 < omega0 (sym q) tM u ^ ((11 : ℝ) / 3) := by positivity
    have e' : (4 * sym q) ^ (-(8 : ℝ) / 3) = 1 := by
      have h3 : 96 / 5 * sym q * omega0 (sym q) tM u ^ ((11 : ℝ) / 3) * ((4 * sym q) ^ (-(8 : ℝ) / 3) - 1) = 0 := by linear_combination -e
      have := (mul_eq_zero.1 h3).resolve_left (by positivity)
      linarith
    have hl := congrArg Real.log e'
    rw [Real.log_rpow (by positivity), Real.log_one] at hl
    have := Real.eq_one_of_pos_of_log_eq_zero (by positivity) ((mul_eq_zero.1 hl).resolve_left (by norm_num))
    linarith
  · intro e
    have e1 : (4 * sym q) ^ (-(8 : ℝ) / 3) = 1 := by rw [e, show (4 : ℝ) * (1 / 4) = 1 by norm_num, Real.one_rpow]
    rw [e1, mul_one] at h
    exact h

/-- C93: in particular the frequency of the default mass ratio is not that of post-Newtonian theory. -/
theorem not_chirp (tM u : ℝ) (hu : u < tM) : ¬ Chirp (sym 2) (omega0 (sym 2) tM) u := by
  rw [chirp_iff 2 tM u (by norm_num) hu]
  norm_num

/-! ## When the function succeeds -/

/-- C93: the function returns a waveform if the step is at most 1 and the merger is 20 steps after `t_0`. -/
theorem succeeds (E : Ext) (hok : ∀ g s : List ℝ, g.length = s.length → 2 ≤ s.length → ∃ I, E.integral g s = .ok I) (hI : SameLength E.integral) (a : Args) (hd : 0 < a.dt) (hd1 : a.dt ≤ 1) (hq : 0 < a.massRatio)
    (h0 : a.t0 + 39 / 2 * a.dt < a.t1 - 100) (hL : 1 ≤ a.ellMax) : ∃ w, corotating E a = .ok w := by
  have ht := grid_strict a hd
  have ht' : Sorted (grid a) := ht.imp le_of_lt
  have h01 : a.t0 ≤ a.t1 := by nlinarith
  obtain ⟨n, hlen, hg, hl, hl'⟩ := times a hd h01
  have hne : grid a ≠ [] := fun e => by rw [e] at hlen; simp at hlen
  have hfirst : (grid a)[0]? = some a.t0 := first_get a rfl (by omega)
  have hlast := hg n le_rfl
  set z := a.t0 + n * a.dt with hz
  have hzmem := List.mem_of_getElem? hlast
  set q := if a.massRatio < 1 then 1 / a.massRatio else a.massRatio with hqd
  have hqpos : 0 < q := by
    rw [hqd]
    split_ifs
    · positivity
    · exact hq
  have hnu : 0 < q / (1 + q) ^ 2 := by positivity
  generalize hnuq : q / (1 + q) ^ 2 = nu at hnu
  have index : ∀ {i : Nat} {u : ℝ}, (grid a)[i]? = some u → u < a.t1 - 100 → i + 2 ≤ n := by
    intro i u hi hu
    have e := grid_get a hi
    by_contra hcon
    have : (n : ℝ) < i + 2 := by exact_mod_cast (by omega : n < i + 2)
    nlinarith
  have get : ∀ {x : ℝ} {i : Nat}, Nearest (grid a) x i → ∃ u, (grid a)[i]? = some u ∧ ∀ v ∈ grid a, |u - x| ≤ |v - x| := by
    rintro x i ⟨u, h1, h2, -⟩
    exact ⟨u, h1, h2⟩
  -- the phase
  obtain ⟨r, hr⟩ : ∃ r, orbital E nu (a.t1 - 100) (grid a) = .ok r := by
    have hpre : ((grid a).filter fun u => 0 < tau nu (a.t1 - 100) u) <+: grid a :=
      filter_prefix (fun u => 0 < tau nu (a.t1 - 100) u) (fun x y hxy hy => (tau_pos hnu).2 (hxy.trans_lt ((tau_pos hnu).1 hy))) _ ht'
    have hmem : a.t0 ∈ (grid a).filter fun u => 0 < tau nu (a.t1 - 100) u :=
      List.mem_filter.2 ⟨List.mem_of_getElem? hfirst, decide_eq_true ((tau_pos hnu).2 (by nlinarith))⟩
    obtain ⟨i1, e1, u1, hu1, -⟩ := Verif.Props.AbdFrame.nearest_spec (((grid a).filter fun u => 0 < tau nu (a.t1 - 100) u).map (omega0 nu (a.t1 - 100))) (1 / 4)
      (List.ne_nil_of_mem (List.mem_map_of_mem hmem))
    have hi1 : i1 < ((grid a).filter fun u => 0 < tau nu (a.t1 - 100) u).length := by
      have := (List.getElem?_eq_some_iff.1 hu1).1
      rwa [List.length_map] at this
    have hi1' : i1 < (grid a).length := hi1.trans_le hpre.length_le
    have hs1 : (grid a)[i1] < a.t1 - 100 := by
      have := List.mem_filter.1 (List.getElem_mem hi1)
      rw [hpre.getElem hi1] at this
      exact (tau_pos hnu).1 (of_decide_eq_true this.2)
    have es1 := List.getElem?_eq_getElem hi1'
    generalize (grid a)[i1] = s1 at hs1 es1
    obtain ⟨i0, e0, hn0⟩ := Verif.Props.AbdFrame.nearest_spec (grid a) (s1 - 5) hne
    obtain ⟨s0, es0, hmin0⟩ := get hn0
    have h01 : s0 ≤ s1 := by
      have := hmin0 s1 (List.mem_of_getElem? es1)
      rw [show s1 - (s1 - 5) = 5 by ring, abs_of_pos (by norm_num : (0 : ℝ) < 5)] at this
      have := (abs_le.1 this).2
      linarith
    obtain ⟨j0, j1, etr⟩ := Verif.Props.Transition.transition_value (grid a) ht' s0 s1 0 1 ⟨z, hzmem, by linarith, by linarith⟩
    have hi0 := index es0 (by linarith)
    unfold orbital
    rw [e1, ok_bind, pyGet_nat es1, ok_bind, e0, ok_bind, pyGet_nat es0, ok_bind, etr, ok_bind]
    simp only
    obtain ⟨I, eI⟩ := hok (((List.range (grid a).length).map fun k : Nat => if k < i1 then omega0 nu (a.t1 - 100) ((grid a).getD k 0) * (1 - ((grid a).map (value s0 s1 0 1)).getD k 0) + 1 / 4 * ((grid a).map (value s0 s1 0 1)).getD k 0 else 1 / 4).drop i0)
      ((grid a).drop i0) (by simp) (by rw [List.length_drop, hlen]; omega)
    rw [eI, ok_bind]
    exact ⟨_, rfl⟩
  have hphi : r.1.length = (grid a).length := (orbital_spec E nu _ hnu _ ht r hr).1
  -- the ringdown
  obtain ⟨i0, e0, hn0⟩ := Verif.Props.AbdFrame.nearest_spec (grid a) (a.t1 - 100) hne
  obtain ⟨r0, er0, -⟩ := get hn0
  have b0 := abs_le.1 (near_grid a hd n hg (a.t1 - 100) (by nlinarith) (by linarith) hn0 er0)
  have hr0 : a.t0 ≤ r0 := by
    have := grid_get a er0
    have : (0 : ℝ) ≤ i0 := Nat.cast_nonneg _
    nlinarith
  obtain ⟨i1, e1, hn1⟩ := Verif.Props.AbdFrame.nearest_spec (grid a) (r0 + 20) hne
  obtain ⟨r1, er1, -⟩ := get hn1
  have b1 := abs_le.1 (near_grid a hd n hg (r0 + 20) (by linarith) (by linarith) hn1 er1)
  have hend : ∃ z ∈ grid a, r0 < z ∧ r1 ≤ z := ⟨r1, List.mem_of_getElem? er1, by linarith, le_rfl⟩
  obtain ⟨j0, j1, etr⟩ := Verif.Props.Transition.transition_value (grid a) ht' r0 r1 0 1 hend
  obtain ⟨j0', j1', etr'⟩ := Verif.Props.Transition.transition_value (grid a) ht' r0 r1 1 0 hend
  obtain ⟨R, hR, hR0, hR1⟩ : ∃ R, ring (a.t1 - 100) (grid a) = .ok R ∧ R.t0 = r0 ∧ R.t1 = r1 := by
    unfold ring
    rw [e0, ok_bind, pyGet_nat er0, ok_bind, e1, ok_bind, pyGet_nat er1, ok_bind, etr, ok_bind]
    exact ⟨_, rfl, rfl, rfl⟩
  -- the frame
  have htwo : ∃ (k : Nat) (z z' : ℝ), (grid a)[k]? = some z ∧ (grid a)[k + 1]? = some z' ∧ r0 < z ∧ z' < r1 := by
    have hi0 : i0 + 2 ≤ n := by
      have e := grid_get a er0
      by_contra hcon
      have : (n : ℝ) < i0 + 2 := by exact_mod_cast (by omega : n < i0 + 2)
      nlinarith
    have e := grid_get a er0
    refine ⟨i0 + 1, _, _, hg (i0 + 1) (by omega), hg (i0 + 1 + 1) (by omega), ?_, ?_⟩ <;> push_cast <;> nlinarith
  obtain ⟨F, hF⟩ : ∃ F, frame E a (grid a) r.1 R = .ok F := by
    obtain ⟨op, eop⟩ := Verif.Props.Transition.to_constant_ok E.integral hI hok ((grid a).map fun u => a.openingAngle + a.openingDot.getD (2 * a.openingAngle / (R.t1 - a.t0)) * u) (grid a) (by rw [List.length_map]) ht' R.t0 R.t1
      (by rw [hR0, hR1]; exact hend) (by rw [hR0, hR1]; exact htwo)
    obtain ⟨prec, eprec⟩ := Verif.Props.Transition.to_constant_ok E.integral hI hok (r.1.map fun p => p / a.relativeRate) (grid a) (by rw [List.length_map, hphi]) ht' R.t0 R.t1
      (by rw [hR0, hR1]; exact hend) (by rw [hR0, hR1]; exact htwo)
    unfold frame
    rw [show pyGet (grid a) 0 = .ok a.t0 from pyGet_nat (i := 0) hfirst, ok_bind]
    simp only
    rw [eop, ok_bind, eprec, ok_bind]
    have : ∀ f : Nat → Quaternion ℝ, pyGet ((List.range (grid a).length).map f) 0 = .ok (f 0) := by
      intro f
      refine pyGet_nat (i := 0) ?_
      rw [List.getElem?_map, List.getElem?_range (by omega)]
      rfl
    rw [this, ok_bind]
    exact ⟨_, rfl⟩
  -- the modes
  have hsize : ¬ totalSize 2 a.ellMax < 0 := by
    unfold totalSize
    nlinarith
  obtain ⟨d, ed, -⟩ := fill_spec a.ellMax r.2 (List.zipWith (fun x p => x * Real.cos p / 40) ((grid a).map (value r0 r1 1 0)) r.1) q (LMRange 2 a.ellMax) (fun _ _ => 0) (Verif.Props.Modes.LM_nodup 2 a.ellMax (by norm_num))
    (fun p hp => (Verif.Props.Modes.mem_LM 2 a.ellMax p.1 p.2).1 hp)
  have h20 : ¬ i0 < 20 := fun h => absurd ((close_iff a hd h01 hn0).1 h) (not_le.2 h0)
  unfold corotating
  simp only
  rw [show arange a.t0 (a.t1 + 99 / 100 * a.dt) a.dt = grid a from rfl, e0, ok_bind, if_neg h20, if_neg hsize, ← hqd, hnuq, hr, ok_bind, hR, ok_bind, hF, ok_bind, hR0, hR1, etr', ok_bind]
  rw [ed, ok_bind]
  exact ⟨_, rfl⟩

/-- Unit quaternions have square roots that are unit quaternions. -/
theorem root_exists (q : Quaternion ℝ) (hq : Quaternion.normSq q = 1) : ∃ c : Quaternion ℝ, c * c = q ∧ Quaternion.normSq c = 1 := by
  rw [Quaternion.normSq_def'] at hq
  by_cases h : q.re = -1
  · have hI : q.imI = 0 := by nlinarith [sq_nonneg q.imI, sq_nonneg q.imJ, sq_nonneg q.imK]
    have hJ : q.imJ = 0 := by nlinarith [sq_nonneg q.imI, sq_nonneg q.imJ, sq_nonneg q.imK]
    have hK : q.imK = 0 := by nlinarith [sq_nonneg q.imI, sq_nonneg q.imJ, sq_nonneg q.imK]
    let c : Quaternion ℝ := ⟨0, 1, 0, 0⟩
    have c0 : c.re = 0 := rfl
    have c1 : c.imI = 1 := rfl
    have c2 : c.imJ = 0 := rfl
    have c3 : c.imK = 0 := rfl
    refine ⟨c, Quaternion.ext _ _ ?_ ?_ ?_ ?_, by rw [Quaternion.normSq_def', c0, c1, c2, c3]; norm_num⟩
    · rw [Quaternion.re_mul, c0, c1, c2, c3, h]; norm_num
    · rw [Quaternion.imI_mul, c0, c1, c2, c3, hI]; norm_num
    · rw [Quaternion.imJ_mul, c0, c1, c2, c3, hJ]; norm_num
    · rw [Quaternion.imK_mul, c0, c1, c2, c3, hK]; norm_num
  · have h1 : 0 < 1 + q.re := by
      have : -1 ≤ q.re := by nlinarith [sq_nonneg q.imI, sq_nonneg q.imJ, sq_nonneg q.imK]
      rcases this.lt_or_eq with h' | h'
      · linarith
      · exact absurd h'.symm h
    set s := √(2 * (1 + q.re)) with hs
    have hs2 : s ^ 2 = 2 * (1 + q.re) := Real.sq_sqrt (by linarith)
    have hs0 : s ≠ 0 := by
      intro e
      rw [e] at hs2
      nlinarith
    let c : Quaternion ℝ := ⟨(1 + q.re) / s, q.imI / s, q.imJ / s, q.imK / s⟩
    have c0 : c.re = (1 + q.re) / s := rfl
    have c1 : c.imI = q.imI / s := rfl
    have c2 : c.imJ = q.imJ / s := rfl
    have c3 : c.imK = q.imK / s := rfl
    refine ⟨c, Quaternion.ext _ _ ?_ ?_ ?_ ?_, ?_⟩
    · rw [Quaternion.re_mul, c0, c1, c2, c3]
      field_simp
      linear_combination -hq - q.re * hs2
    · rw [Quaternion.imI_mul, c0, c1, c2, c3]
      field_simp
      linear_combination -q.imI * hs2
    · rw [Quaternion.imJ_mul, c0, c1, c2, c3]
      field_simp
      linear_combination -q.imJ * hs2
    · rw [Quaternion.imK_mul, c0, c1, c2, c3]
      field_simp
      linear_combination -q.imK * hs2
    · rw [Quaternion.normSq_def', c0, c1, c2, c3]
      field_simp
      linear_combination hq - hs2

/-- C93 for the default arguments: the function succeeds, and the waveform has the pieces described above. -/
example : ∃ (E : Ext) (w : Wave) (p : Pieces), SameLength E.integral ∧ ZeroIntegral E ∧ Root E ∧ corotating E {} = .ok w ∧ Built E {} w p := by
  have key : ∀ q : Quaternion ℝ, ∃ c : Quaternion ℝ, Quaternion.normSq q = 1 → c * c = q ∧ Quaternion.normSq c = 1 := by
    intro q
    by_cases hq : Quaternion.normSq q = 1
    · obtain ⟨c, hc⟩ := root_exists q hq
      exact ⟨c, fun _ => hc⟩
    · exact ⟨0, fun h => absurd h hq⟩
  choose f hf using key
  let E : Ext := { integral := fun _ s => .ok (s.map fun _ => 0), qsqrt := f }
  have hI : SameLength E.integral := fun g s I h => by
    rw [← Except.ok.inj h, List.length_map]
  obtain ⟨w, hw⟩ := succeeds E (fun g s _ _ => ⟨_, rfl⟩) hI {} (by norm_num) (by norm_num) (by norm_num) (by norm_num) (by norm_num)
  obtain ⟨p, hp⟩ := corotating_spec E hI {} (by norm_num) (by norm_num) w hw
  refine ⟨E, w, p, hI, fun g s I _ h x hx => ?_, hf, hw, hp⟩
  rw [← Except.ok.inj h] at hx
  obtain ⟨_, -, rfl⟩ := List.mem_map.1 hx
  rfl

end Verif.Props.Precessing
