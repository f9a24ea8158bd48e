import Verif.Model.AbdTransform
import Verif.Spec.AbdTransform
import Mathlib.Analysis.SpecialFunctions.Pow.Real
import Mathlib.Tactic.FieldSimp
import Mathlib.Tactic.LinearCombination
import Mathlib.Tactic.IntervalCases
import Mathlib.Tactic.Linarith

/-!
# C30, C31, C32: BMS transformations of asymptotic data, point by point
-/

namespace Verif.Props.AbdTransform

open Verif.AbdTransform Verif.Spec.AbdTransform Finset

/-! ## C30 -/

/-- The Weyl components in one direction at the time with number `i`. -/
def psiOf (d : Dir) (i : Nat) : Nat → ℂ
  | 0 => d.psi0 i
  | 1 => d.psi1 i
  | 2 => d.psi2 i
  | 3 => d.psi3 i
  | 4 => d.psi4 i
  | _ => 0

/-- C30: before the interpolation in time the new fields are those of the transformation law, with `1/k = γ(1 - v·r)` and `e = ðk/k (u - α) - ðα`. -/
theorem fprime_spec (g : ℝ) (d : Dir) (i : Nat) (u : ℝ) :
    (∀ n, n ≤ 4 → (fprime g d i u).getD n 0 = mix ((oneOverK g d : ℝ) : ℂ) (ethUprime d u) (psiOf d i) n) ∧
      (fprime g d i u).getD 5 0 = shear ((oneOverK g d : ℝ) : ℂ) (ethEthAlpha d) (d.sigma i) ∧ (fprime g d i u).length = 6 := by
  refine ⟨?_, ?_, rfl⟩
  · intro n hn
    interval_cases n <;>
      simp [fprime, mix, sum_range_succ, psiOf, hornerPsi0, hornerPsi1, hornerPsi2, hornerPsi3, hornerPsi4, oneOverKCubed, Nat.choose] <;> ring
  · simp [fprime, newSigma, shear]
    ring

/-- The interpolation passes through its nodes. -/
def Interpolates (spline : List (ℝ × ℂ) → ℝ → ℂ) : Prop :=
  ∀ nodes : List (ℝ × ℂ), (nodes.map Prod.fst).Pairwise (· < ·) → ∀ p ∈ nodes, spline nodes p.1 = p.2

/-! ## C32: the time slices -/

theorem npMax_spec (l : List ℝ) (hl : l ≠ []) : ∃ x, npMax l = .ok x ∧ x ∈ l ∧ ∀ y ∈ l, y ≤ x := by
  rcases h : l.max? with _ | x
  · exact absurd (List.max?_eq_none_iff.mp h) hl
  · obtain ⟨h1, h2⟩ := List.max?_eq_some_iff.mp h
    exact ⟨x, by simp [npMax, h], h1, h2⟩

theorem npMin_spec (l : List ℝ) (hl : l ≠ []) : ∃ x, npMin l = .ok x ∧ x ∈ l ∧ ∀ y ∈ l, x ≤ y := by
  rcases h : l.min? with _ | x
  · exact absurd (List.min?_eq_none_iff.mp h) hl
  · obtain ⟨h1, h2⟩ := List.min?_eq_some_iff.mp h
    exact ⟨x, by simp [npMin, h], h1, h2⟩

theorem pyGet_first {α : Type} (u : List α) (hu : u ≠ []) : pyGet u 0 = .ok (u.head hu) := by
  cases u with
  | nil => exact absurd rfl hu
  | cons a u => rfl

theorem pyGet_last {α : Type} (u : List α) (hu : u ≠ []) : pyGet u (-1) = .ok (u.getLast hu) := by
  have hl : 0 < u.length := List.length_pos_iff.mpr hu
  have h2 : (-1 : Int) + u.length = ((u.length - 1 : Nat) : Int) := by omega
  have h3 : u[u.length - 1]? = some (u.getLast hu) := by
    rw [List.getElem?_eq_getElem (by omega), List.getLast_eq_getElem]
  unfold pyGet
  simp only [show (-1 : Int) < 0 by decide, if_true, h2]
  rw [if_neg (by omega), Int.toNat_natCast, h3]

/-- The choice of slices, for any conformal factors and supertranslation. -/
theorem select_spec (cand u : List ℝ) (hu : u ≠ []) (ks : List (ℝ × ℝ)) (hks : ks ≠ []) (hpos : ∀ p ∈ ks, 0 < p.1) :
    ∃ ts, (do
        let first ← pyGet u 0
        let last ← pyGet u (-1)
        let lo ← npMax (ks.map fun p => p.1 * (first - p.2))
        let hi ← npMin (ks.map fun p => p.1 * (last - p.2))
        pure (cand.filter fun t => decide (t ≥ lo ∧ t ≤ hi))) = (.ok ts : Py (List ℝ)) ∧ ts.Sublist cand ∧
      ∀ t ∈ cand, t ∈ ts ↔ ∀ p ∈ ks, u.head hu ≤ t / p.1 + p.2 ∧ t / p.1 + p.2 ≤ u.getLast hu := by
  obtain ⟨lo, h1, h2, h3⟩ := npMax_spec (ks.map fun p => p.1 * (u.head hu - p.2)) (by simpa using hks)
  obtain ⟨hi, h4, h5, h6⟩ := npMin_spec (ks.map fun p => p.1 * (u.getLast hu - p.2)) (by simpa using hks)
  refine ⟨_, by rw [pyGet_first u hu, ok_bind, pyGet_last u hu, ok_bind, h1, ok_bind, h4, ok_bind, pure_eq_ok], List.filter_sublist, ?_⟩
  intro t ht
  have key1 : ∀ p ∈ ks, (u.head hu ≤ t / p.1 + p.2 ↔ p.1 * (u.head hu - p.2) ≤ t) := by
    intro p hp
    rw [← sub_le_iff_le_add, le_div_iff₀ (hpos p hp), mul_comm]
  have key2 : ∀ p ∈ ks, (t / p.1 + p.2 ≤ u.getLast hu ↔ t ≤ p.1 * (u.getLast hu - p.2)) := by
    intro p hp
    rw [← le_sub_iff_add_le, div_le_iff₀ (hpos p hp), mul_comm]
  simp only [List.mem_filter, ht, true_and, decide_eq_true_eq]
  constructor
  · rintro ⟨a, b⟩ p hp
    exact ⟨(key1 p hp).mpr ((h3 _ (List.mem_map_of_mem hp)).trans a), (key2 p hp).mpr (b.trans (h6 _ (List.mem_map_of_mem hp)))⟩
  · intro h
    obtain ⟨p, hp, hpl⟩ := List.mem_map.mp h2
    obtain ⟨q, hq, hql⟩ := List.mem_map.mp h5
    exact ⟨by rw [← hpl]; exact (key1 p hp).mp (h p hp).1, by rw [← hql]; exact (key2 q hq).mp (h q hq).2⟩

/-- C32: the new times are, in their order, exactly those of the candidates `(u - <α>)/γ` for which in every direction of the grid the original time `u'/k + α` lies between the first and the last time of the
data: nothing is extrapolated, and nothing is thrown away without need. -/
theorem slices_spec (g alpha0 : ℝ) (u : List ℝ) (hu : u ≠ []) (dirs : List Dir) (hd : dirs ≠ []) (hpos : ∀ d ∈ dirs, 0 < oneOverK g d) :
    ∃ ts, slices g alpha0 u dirs = .ok ts ∧ ts.Sublist (u.map fun u => (u - alpha0) / g) ∧
      ∀ t ∈ u.map (fun u => (u - alpha0) / g), t ∈ ts ↔ ∀ d ∈ dirs, u.head hu ≤ t / kFactor g d + d.alpha ∧ t / kFactor g d + d.alpha ≤ u.getLast hu := by
  obtain ⟨ts, h1, h2, h3⟩ := select_spec (u.map fun u => (u - alpha0) / g) u hu (dirs.map fun d => (kFactor g d, d.alpha)) (by simpa using hd) (by
    intro p hp
    obtain ⟨d, hd, rfl⟩ := List.mem_map.mp hp
    exact one_div_pos.mpr (hpos d hd))
  refine ⟨ts, ?_, h2, ?_⟩
  · rw [← h1]
    simp only [slices, List.map_map]
    rfl
  · intro t ht
    rw [h3 t ht]
    simp

/-- C32 for `WaveformGrid.from_modes`. -/
theorem gridSlices_spec (g alpha0 : ℝ) (u : List ℝ) (hu : u ≠ []) (dirs : List GridDir) (hd : dirs ≠ []) (hpos : ∀ d ∈ dirs, 0 < d.k) :
    ∃ ts, gridSlices g alpha0 u dirs = .ok ts ∧ ts.Sublist (u.map fun u => (u - alpha0) / g) ∧
      ∀ t ∈ u.map (fun u => (u - alpha0) / g), t ∈ ts ↔ ∀ d ∈ dirs, u.head hu ≤ t / d.k + d.alpha ∧ t / d.k + d.alpha ≤ u.getLast hu := by
  obtain ⟨ts, h1, h2, h3⟩ := select_spec (u.map fun u => (u - alpha0) / g) u hu (dirs.map fun d => (d.k, d.alpha)) (by simpa using hd) (by
    intro p hp
    obtain ⟨d, hd, rfl⟩ := List.mem_map.mp hp
    exact hpos d hd)
  have he : (u.map fun u => (1 / g) * (u - alpha0)) = u.map fun u => (u - alpha0) / g := List.map_congr_left fun x _ => by ring
  refine ⟨ts, ?_, h2, ?_⟩
  · rw [← h1]
    simp only [gridSlices, List.map_map, he]
    rfl
  · intro t ht
    rw [h3 t ht]
    simp

/-- The candidates are chosen so that the average of the original time over the sphere is an original time: for every average in which `v·r` has mean zero. -/
theorem slice_average {F : Type} [AddCommGroup F] [Module ℝ F] (avg : F →ₗ[ℝ] ℝ) (one vr alpha : F) (h1 : avg one = 1) (h2 : avg vr = 0) (g alpha0 u : ℝ) (hg : g ≠ 0) (ha : avg alpha = alpha0) :
    avg (((u - alpha0) / g) • (g • (one - vr)) + alpha) = u := by
  simp only [map_add, map_smul, map_sub, h1, h2, ha, smul_eq_mul]
  field_simp
  ring

theorem dot_le (v r : Fin 3 → ℝ) (hr : ∑ i, r i ^ 2 = 1) (beta : ℝ) (hb : 0 ≤ beta) (hv : ∑ i, v i ^ 2 = beta ^ 2) : |∑ i, v i * r i| ≤ beta := by
  have := Finset.sum_mul_sq_le_sq_mul_sq Finset.univ v r
  rw [hr, hv, mul_one] at this
  exact abs_le_of_sq_le_sq' this hb |> abs_le.mpr

/-- C32: for a boost of speed less than 1 the conformal factor is positive and between the two Doppler factors, in every direction. -/
theorem doppler (beta : ℝ) (hb : 0 ≤ beta) (hb1 : beta < 1) (d : Dir) (hd : |d.vr| ≤ beta) :
    0 < oneOverK (gamma beta) d ∧ √((1 - beta) / (1 + beta)) ≤ kFactor (gamma beta) d ∧ kFactor (gamma beta) d ≤ √((1 + beta) / (1 - beta)) := by
  obtain ⟨h1, h2⟩ := abs_le.mp hd
  have hm : 0 < 1 - beta := by linarith
  have hp : 0 < 1 + beta := by linarith
  have hv : 0 < 1 - d.vr := by linarith
  have hs : 0 < √(1 - beta ^ 2) := Real.sqrt_pos.mpr (by nlinarith)
  have hprod : √(1 - beta ^ 2) = √(1 - beta) * √(1 + beta) := by rw [← Real.sqrt_mul hm.le]; ring_nf
  have ha : 0 < √(1 - beta) := Real.sqrt_pos.mpr hm
  have hb' : 0 < √(1 + beta) := Real.sqrt_pos.mpr hp
  have ha2 : √(1 - beta) ^ 2 = 1 - beta := Real.sq_sqrt hm.le
  have hb2 : √(1 + beta) ^ 2 = 1 + beta := Real.sq_sqrt hp.le
  have hk : kFactor (gamma beta) d = √(1 - beta) * √(1 + beta) / (1 - d.vr) := by
    unfold kFactor oneOverK gamma
    rw [← hprod]
    field_simp
  refine ⟨mul_pos (one_div_pos.mpr hs) hv, ?_, ?_⟩
  · rw [hk, Real.sqrt_div hm.le, div_le_div_iff₀ hb' hv]
    have : √(1 - beta) * √(1 + beta) * √(1 + beta) = √(1 - beta) * (1 + beta) := by rw [mul_assoc, ← sq, hb2]
    rw [this]
    exact mul_le_mul_of_nonneg_left (by linarith) ha.le
  · rw [hk, Real.sqrt_div hp.le, div_le_div_iff₀ hv ha]
    have : √(1 - beta) * √(1 + beta) * √(1 - beta) = √(1 + beta) * (1 - beta) := by rw [mul_right_comm, ← sq, ha2, mul_comm]
    rw [this]
    exact mul_le_mul_of_nonneg_left (by linarith) hb'.le

/-! ## C30: the whole transformation -/

/-- The nodes of the interpolation in one direction. -/
noncomputable def nodes (g : ℝ) (u : List ℝ) (d : Dir) (c : Nat) : List (ℝ × ℂ) :=
  u.zipIdx.map fun p => (kFactor g d * (p.1 - d.alpha), (fprime g d p.2 p.1).getD c 0)

theorem nodes_increasing (g : ℝ) (u : List ℝ) (hu : u.Pairwise (· < ·)) (d : Dir) (hpos : 0 < oneOverK g d) (c : Nat) : ((nodes g u d c).map Prod.fst).Pairwise (· < ·) := by
  have : (nodes g u d c).map Prod.fst = u.map fun x => kFactor g d * (x - d.alpha) := by
    conv_rhs => rw [← List.zipIdx_map_fst 0 u]
    rw [nodes, List.map_map, List.map_map]
    rfl
  rw [this, List.pairwise_map]
  refine hu.imp fun {a b} h => ?_
  have hk : 0 < kFactor g d := one_div_pos.mpr hpos
  exact mul_lt_mul_of_pos_left (by linarith) hk

/-- C30: `transform` returns, in every direction and at every new time, the interpolant in `u' = k (u - α)` of the fields given by the transformation law (`fprime_spec`).  At a new time that is the
image of an original one the interpolant is the value itself. -/
theorem transform_spec (spline : List (ℝ × ℂ) → ℝ → ℂ) (hs : Interpolates spline) (beta alpha0 : ℝ) (u : List ℝ) (hu : u ≠ []) (hinc : u.Pairwise (· < ·)) (dirs : List Dir) (hd : dirs ≠ [])
    (hb : 0 ≤ beta) (hb1 : beta < 1) (hv : ∀ d ∈ dirs, |d.vr| ≤ beta) :
    ∃ ts vals, transform spline beta alpha0 u dirs = .ok (ts, vals) ∧ slices (gamma beta) alpha0 u dirs = .ok ts ∧ vals.length = dirs.length ∧
      ∀ j (hj : j < dirs.length) c, c < 6 → ∀ i, i < ts.length →
        ((vals.getD j []).getD c []).getD i 0 = spline (nodes (gamma beta) u dirs[j] c) (ts.getD i 0) ∧
        ∀ l (hl : l < u.length), ts.getD i 0 = kFactor (gamma beta) dirs[j] * (u[l] - dirs[j].alpha) →
          ((vals.getD j []).getD c []).getD i 0 = (fprime (gamma beta) dirs[j] l u[l]).getD c 0 := by
  obtain ⟨ts, h1, -⟩ := slices_spec (gamma beta) alpha0 u hu dirs hd (fun d hd => (doppler beta hb hb1 d (hv d hd)).1)
  refine ⟨ts, dirs.map (interpolated spline (gamma beta) u ts), ?_, h1, by simp, ?_⟩
  · simp [transform, h1, ok_bind, pure_eq_ok]
  · intro j hj c hc i hi
    have e1 : (((dirs.map (interpolated spline (gamma beta) u ts)).getD j []).getD c []).getD i 0 = spline (nodes (gamma beta) u dirs[j] c) (ts.getD i 0) := by
      simp [List.getD_eq_getElem?_getD, hj, interpolated, hc, hi, nodes]
    refine ⟨e1, fun l hl ht => ?_⟩
    rw [e1, ht]
    have hmem : (kFactor (gamma beta) dirs[j] * (u[l] - dirs[j].alpha), (fprime (gamma beta) dirs[j] l u[l]).getD c 0) ∈ nodes (gamma beta) u dirs[j] c :=
      List.mem_map.mpr ⟨(u[l], l), by rw [List.mem_zipIdx_iff_getElem?]; simp [hl], rfl⟩
    exact hs _ (nodes_increasing _ u hinc _ (doppler beta hb hb1 _ (hv _ (List.getElem_mem hj))).1 c) _ hmem

/-- A direction in which there is nothing but a time translation. -/
def OnlyTime (delta : ℝ) (d : Dir) : Prop := d.vr = 0 ∧ d.ethVr = 0 ∧ d.alpha = delta ∧ d.ethAlphaNP = 0 ∧ d.ethEthAlphaNP = 0

theorem fprime_only_time (delta : ℝ) (d : Dir) (h : OnlyTime delta d) (l : Nat) (x : ℝ) :
    fprime (gamma 0) d l x = [d.psi0 l, d.psi1 l, d.psi2 l, d.psi3 l, d.psi4 l, d.sigma l] := by
  obtain ⟨h1, h2, h3, h4, h5⟩ := h
  have hg : gamma 0 = 1 := by simp [gamma]
  simp [fprime, ethUprime, ethkOverK, ethAlpha, ethEthAlpha, oneOverKCubed, oneOverK, h1, h2, h4, h5, hg, hornerPsi0, hornerPsi1, hornerPsi2, hornerPsi3, hornerPsi4, newSigma]

/-- C30: a time translation by `δ` (the identity, for `δ = 0`) shifts the times by `δ` and leaves the fields as they are, with all times retained. -/
theorem time_translation (spline : List (ℝ × ℂ) → ℝ → ℂ) (hs : Interpolates spline) (delta : ℝ) (u : List ℝ) (hu : u ≠ []) (hinc : u.Pairwise (· < ·)) (dirs : List Dir) (hd : dirs ≠ [])
    (h : ∀ d ∈ dirs, OnlyTime delta d) :
    ∃ vals, transform spline 0 delta u dirs = .ok (u.map (· - delta), vals) ∧ vals.length = dirs.length ∧
      ∀ j (hj : j < dirs.length) i, i < u.length → ∀ c, ((vals.getD j []).getD c []).getD i 0 =
        [dirs[j].psi0 i, dirs[j].psi1 i, dirs[j].psi2 i, dirs[j].psi3 i, dirs[j].psi4 i, dirs[j].sigma i].getD c 0 := by
  have hg : gamma 0 = 1 := by simp [gamma]
  have hk : ∀ d ∈ dirs, kFactor (gamma 0) d = 1 := by
    intro d hd
    simp [kFactor, oneOverK, hg, (h d hd).1]
  have hpos : ∀ d ∈ dirs, 0 < oneOverK (gamma 0) d := by
    intro d hd
    simp [oneOverK, hg, (h d hd).1]
  obtain ⟨ts, vals, h1, h2, h3, h4⟩ := transform_spec spline hs 0 delta u hu hinc dirs hd le_rfl one_pos (by intro d hd; simp [(h d hd).1])
  obtain ⟨ts', g1, g2, g3⟩ := slices_spec (gamma 0) delta u hu dirs hd hpos
  have hts : ts = u.map (· - delta) := by
    rw [g1] at h2
    cases h2
    have hc : (u.map fun u => (u - delta) / gamma 0) = u.map (· - delta) := List.map_congr_left fun x _ => by simp [hg]
    rw [hc] at g2 g3
    refine g2.eq_of_length_le (List.Nodup.subperm ?_ ?_).length_le
    · refine (List.pairwise_map.mpr (hinc.imp fun {a b} hab => ?_))
      intro e
      linarith
    · intro t ht
      rw [g3 t ht]
      intro d hd'
      obtain ⟨x, hx, rfl⟩ := List.mem_map.mp ht
      rw [hk d hd', (h d hd').2.2.1]
      have hle := hinc.imp (fun {a b} (hab : a < b) => hab.le)
      refine ⟨?_, ?_⟩
      · have : u.head hu ≤ x := by
          cases u with
          | nil => exact absurd rfl hu
          | cons a u =>
            rcases List.mem_cons.mp hx with rfl | hx
            · exact le_rfl
            · exact (List.pairwise_cons.mp hle).1 x hx
        simpa using this
      · have : x ≤ u.getLast hu := by
          obtain ⟨n, hn, rfl⟩ := List.getElem_of_mem hx
          rw [List.getLast_eq_getElem]
          rcases Nat.lt_or_ge n (u.length - 1) with hlt | hge
          · exact (List.pairwise_iff_getElem.mp hle) n (u.length - 1) hn (by omega) hlt
          · have : n = u.length - 1 := by omega
            subst this
            exact le_rfl
        simpa using this
  subst hts
  refine ⟨vals, h1, h3, fun j hj i hi c => ?_⟩
  rcases Nat.lt_or_ge c 6 with hc | hc
  · obtain ⟨_, h5⟩ := h4 j hj c hc i (by simpa using hi)
    rw [h5 i hi, fprime_only_time delta _ (h _ (List.getElem_mem hj))]
    rw [hk _ (List.getElem_mem hj), (h _ (List.getElem_mem hj)).2.2.1]
    simp [List.getD_eq_getElem?_getD, hi]
  · have hl : (vals.getD j []).getD c [] = [] := by
      simp only [transform, h2, ok_bind, pure_eq_ok] at h1
      cases h1
      simp [List.getD_eq_getElem?_getD, hj, interpolated, hc]
    rw [hl]
    simp [List.getD_eq_getElem?_getD, hc]

end Verif.Props.AbdTransform
