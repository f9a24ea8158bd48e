import Verif.Lemmas.Norm
import Mathlib.Tactic.Set

/-!
# C46: `norm` and `max_norm_index`
-/

namespace Verif.Props.Norm
open Verif.Norm

/-- Specification: the squared L2 norm of the modes at one time. -/
noncomputable def power (r : List ℂ) : ℝ := (r.map fun z => ‖z‖ ^ 2).sum

/-- Specification: `i` is the first place in `[lo, n)` where `f` is largest. -/
structure FirstMax (f : Nat → ℝ) (lo n i : Nat) : Prop where
  ge : lo ≤ i
  lt : i < n
  max : ∀ j, lo ≤ j → j < n → f j ≤ f i
  first : ∀ j, lo ≤ j → j < i → f j < f i

/-- C46.  `norm()` is the sum over modes of the squared magnitudes at each time, or its square
root. -/
theorem norm_all (data : List (List ℂ)) (b : Bool) :
    normArr data b ⟨none, none, none⟩ =
      .ok (data.map fun r => if b then Real.sqrt (power r) else power r) := by
  unfold normArr pySlice
  obtain ⟨a, c, h1, h2, h3, h4, hp⟩ := positions_unit data.length none none none (Or.inl rfl)
  simp only [resolveBound] at h3 h4
  have ha : a = 0 := by omega
  have hc : c = data.length := by omega
  simp only [hp, ok_bind, pure_eq_ok]
  rw [ha, hc, gather_range' _ _ _ (by omega)]
  simp [power, ← rowNorm_eq]

/-- C46.  With a slice, the same for the selected times. -/
theorem norm_slice (data : List (List ℂ)) (b : Bool) (s : PySlice) (idx : List Nat)
    (h : s.positions data.length = .ok idx) :
    ∃ n, normArr data b s = .ok n ∧ n.length = idx.length ∧
      ∀ k : Nat, n[k]? = (idx[k]?.bind fun i => data[i]?).map fun r =>
        if b then Real.sqrt (power r) else power r := by
  refine ⟨(gather data idx).map fun r => if b then Real.sqrt (rowNorm r) else rowNorm r,
    by unfold normArr pySlice; simp only [h, ok_bind, pure_eq_ok], ?_, ?_⟩
  · rw [List.length_map, gather_length _ _ (positions_lt _ _ _ h)]
  · intro k
    rw [List.getElem?_map, getElem?_gather _ _ (positions_lt _ _ _ h)]
    simp [power, ← rowNorm_eq]

/-- C46.  The norm is non-negative and vanishes exactly where all modes vanish. -/
theorem power_eq_zero_iff (r : List ℂ) : 0 ≤ power r ∧ (power r = 0 ↔ ∀ z ∈ r, z = 0) := by
  unfold power
  induction r with
  | nil => simp
  | cons z r ih =>
    obtain ⟨h1, h2⟩ := ih
    have hz : 0 ≤ ‖z‖ ^ 2 := by positivity
    constructor
    · rw [List.map_cons, List.sum_cons]; linarith
    · rw [List.map_cons, List.sum_cons]
      constructor
      · intro h
        have e1 : ‖z‖ ^ 2 = 0 := by linarith
        have e2 : (r.map fun z => ‖z‖ ^ 2).sum = 0 := by linarith
        intro w hw
        rcases List.mem_cons.mp hw with rfl | hw
        · exact norm_eq_zero.mp (pow_eq_zero_iff (by norm_num) |>.mp e1)
        · exact h2.mp e2 w hw
      · intro h
        rw [h z (by simp), h2.mpr (fun w hw => h w (by simp [hw]))]
        simp

/-- The search for the maximum in the rows from number `lo` on. -/
theorem search (data : List (List ℂ)) (start : Option Int) (lo : Nat) (hlo : lo < data.length)
    (hr : resolveBound data.length 0 data.length 0 start = lo) :
    ∃ n i, normArr data false ⟨start, none, none⟩ = .ok n ∧ argmax n = .ok i ∧
      FirstMax (fun j => power (data.getD j [])) lo data.length (lo + i) := by
  obtain ⟨a, c, h1, h2, h3, h4, hp⟩ := positions_unit data.length start none none (Or.inl rfl)
  have ha : a = lo := by omega
  have hc : c = data.length := by simp only [resolveBound] at h4; omega
  rw [ha, hc] at hp
  obtain ⟨n, hn, hlen, hget⟩ := norm_slice data false ⟨start, none, none⟩ _ hp
  have hlen' : n.length = data.length - lo := by rw [hlen]; simp
  obtain ⟨i, y, hi, hy, hmax, hfirst⟩ := argmax_spec n (by intro h; rw [h] at hlen'; simp at hlen'; omega)
  have key : ∀ k, k < data.length - lo → n[k]? = some (power (data.getD (lo + k) [])) := by
    intro k hk
    rw [hget, List.getElem?_range' hk]
    simp [List.getD_eq_getElem?_getD, List.getElem?_eq_getElem (show lo + k < data.length by omega)]
  have hi' : i < data.length - lo := by
    rw [← hlen']; exact (List.getElem?_eq_some_iff.mp hy).1
  have hyv : y = power (data.getD (lo + i) []) := by
    rw [key i hi'] at hy; exact (Option.some.inj hy).symm
  refine ⟨n, i, hn, hi, ⟨by omega, by omega, ?_, ?_⟩⟩
  · intro j hj1 hj2
    have := hmax (j - lo) _ (key (j - lo) (by omega))
    rw [show lo + (j - lo) = j by omega] at this
    rw [hyv] at this; exact this
  · intro j hj1 hj2
    have := hfirst (j - lo) (by omega) _ (key (j - lo) (by omega))
    rw [show lo + (j - lo) = j by omega] at this
    rw [hyv] at this; exact this

/-- C46.  For any non-negative skip parameter and any waveform with at least one time,
`max_norm_index` is the first time with the largest norm among those from `n_times // skip` on
(all of them for 0 and 1). -/
theorem max_norm_index_spec (data : List (List ℂ)) (h : data ≠ []) (skip : Nat) :
    ∃ i : Nat, maxNormIndex data skip = .ok (i : Int) ∧
      FirstMax (fun j => power (data.getD j []))
        (if skip ≤ 1 then 0 else data.length / skip) data.length i := by
  have hpos : 0 < data.length := List.length_pos_iff.mpr h
  by_cases hs : skip ≤ 1
  · obtain ⟨n, i, hn, hi, hm⟩ := search data none 0 hpos rfl
    refine ⟨i, ?_, by rw [if_pos hs]; simpa using hm⟩
    unfold maxNormIndex
    rw [if_pos (by omega)]
    simp only [hn, hi, ok_bind, pure_eq_ok]
  · have hlt : data.length / skip < data.length := Nat.div_lt_self hpos (by omega)
    have he : Int.fdiv (data.length : Int) skip = ((data.length / skip : Nat) : Int) := by
      rw [Int.fdiv_eq_ediv_of_nonneg _ (by omega)]; rfl
    obtain ⟨n, i, hn, hi, hm⟩ := search data (some ((data.length / skip : Nat) : Int))
      (data.length / skip) hlt (by
        have hle : ((data.length / skip : Nat) : Int) ≤ data.length := by exact_mod_cast hlt.le
        have h0 : (0 : Int) ≤ ((data.length / skip : Nat) : Int) := Int.natCast_nonneg _
        generalize ((data.length / skip : Nat) : Int) = q at *
        simp only [resolveBound]; rw [if_neg (by omega)]; omega)
    refine ⟨data.length / skip + i, ?_, by rw [if_neg hs]; exact hm⟩
    unfold maxNormIndex
    rw [if_neg (by omega)]
    rw [he]
    simp only [hn, hi, ok_bind, pure_eq_ok]
    congr 1
    push_cast
    ring

/-- C46.  For a negative skip parameter the result is a negative index, which counts from the end;
the time it denotes is the first with the largest norm among the last `-(n_times // skip)`. -/
theorem max_norm_index_negative (data : List (List ℂ)) (h : data ≠ []) (skip : Int) (hs : skip < 0) :
    ∃ lo i : Nat, (lo : Int) = data.length + Int.fdiv data.length skip ∧
      maxNormIndex data skip = .ok ((i : Int) - data.length) ∧
      FirstMax (fun j => power (data.getD j [])) lo data.length i := by
  have hpos : 0 < data.length := List.length_pos_iff.mpr h
  have e := Int.mul_fdiv_add_fmod (data.length : Int) skip
  have m0 := Int.neg_fmod_neg (-(data.length : Int)) (-skip)
  rw [neg_neg, neg_neg] at m0
  have m1 := Int.fmod_nonneg_of_pos (-(data.length : Int)) (b := -skip) (by omega)
  have m2 := Int.fmod_lt_of_pos (-(data.length : Int)) (b := -skip) (by omega)
  set q := Int.fdiv (data.length : Int) skip with hq
  set r := Int.fmod (data.length : Int) skip with hr
  have b1 : q < 0 := by
    by_contra hcon
    have : skip * q ≤ 0 := Int.mul_nonpos_of_nonpos_of_nonneg (by omega) (by omega)
    omega
  have b2 : -(data.length : Int) ≤ q := by
    by_contra hcon
    have h1 : 0 ≤ (-skip - 1) * (-q - data.length - 1) := Int.mul_nonneg (by omega) (by omega)
    have h2 : 0 ≤ (-skip - 1) * (data.length : Int) := Int.mul_nonneg (by omega) (by omega)
    nlinarith
  obtain ⟨n, i, hn, hi, hm⟩ := search data (some q) (data.length + q).toNat (by omega)
    (by simp only [resolveBound]; rw [if_pos b1]; omega)
  refine ⟨(data.length + q).toNat, (data.length + q).toNat + i, by omega, ?_, hm⟩
  unfold maxNormIndex
  rw [if_neg (by omega)]
  simp only [← hq, hn, hi, ok_bind, pure_eq_ok]
  congr 1
  omega

/-- C46.  `max_norm_time` is the time of that sample. -/
theorem max_norm_time_spec {τ : Type} (t : List τ) (data : List (List ℂ)) (ht : t.length = data.length)
    (h : data ≠ []) (skip : Nat) :
    ∃ (i : Nat) (x : τ), maxNormTime t data skip = .ok x ∧ t[i]? = some x ∧
      FirstMax (fun j => power (data.getD j []))
        (if skip ≤ 1 then 0 else data.length / skip) data.length i := by
  obtain ⟨i, hi, hm⟩ := max_norm_index_spec data h skip
  have hlt : i < t.length := by rw [ht]; exact hm.lt
  refine ⟨i, t[i], ?_, List.getElem?_eq_getElem hlt, hm⟩
  unfold maxNormTime
  rw [hi, ok_bind]
  exact pyGet_nat (List.getElem?_eq_getElem hlt)

/-- C46.  An empty waveform is refused. -/
theorem max_norm_index_empty (skip : Int) : maxNormIndex [] skip = .error .valueError := by
  unfold maxNormIndex
  split
  · rw [norm_all, ok_bind]; rfl
  · have : Int.fdiv (([] : List (List ℂ)).length : Int) skip = 0 := by simp
    simp only [this]
    have : normArr [] false ⟨some 0, none, none⟩ = .ok [] := by
      unfold normArr pySlice
      rw [show (PySlice.mk (some 0) none none).positions ([] : List (List ℂ)).length = .ok [] by rfl]
      rfl
    rw [this, ok_bind]; rfl

-- The hypotheses can be met: three times, the maximum at the last two.
example : ([[1, Complex.I], [2], [2]] : List (List ℂ)) ≠ [] := by simp
example : power [1, Complex.I] = 2 := by simp [power]; norm_num
example : argmax [3, 7, 7, (1 : Nat)] = .ok 1 := by decide

end Verif.Props.Norm
