import Verif.Lemmas.FluxCommutator
import Verif.Props.ModeCalc
import Verif.Props.Modes

/-!
# C22, C23, C54, C55: expectation values and fluxes
-/

namespace Verif.Props.Flux
open Verif Verif.Flux Verif.Modes Verif.Slicing Verif.Spec.Flux Verif.Spec.Slicing Verif.Spec.AngMom Verif.ModeCalc
open ComplexConjugate Finset

/-! ### C22: the energy flux -/

/-- The sum over the row of a time is the sum over all modes. -/
theorem sum_row (w : WM ℝ Unit ℂ) (hw : Valid w) (F : ℂ → ℂ) (k : Nat) (r : List ℂ) (hr : w.data[k]? = some r) :
    (r.map F).sum = ∑ ell ∈ Icc w.ellMin w.ellMax, ∑ m ∈ Icc (-ell) ell, F (modesOf w k ell m) := by
  rw [← sum_LMRange]
  have hk : k < w.t.length := by
    rw [← hw.rows]; exact (List.getElem?_eq_some_iff.mp hr).1
  congr 1
  have hlen : (LMRange w.ellMin w.ellMax).length = r.length := by
    have h1 := Verif.Props.Modes.LM_length w.ellMin w.ellMax hw.min hw.max
    have h2 := hw.cols r (List.mem_of_getElem? hr)
    have h3 := hw.modes
    omega
  apply List.ext_getElem
  · simp [hlen]
  · intro i h1 h2
    simp only [List.getElem_map]
    have hi : i < (LMRange w.ellMin w.ellMax).length := by simpa using h2
    have hidx := Verif.Props.Modes.index_LM w.ellMin w.ellMax hw.min i _ _ (List.getElem?_eq_getElem hi)
    have key : ∀ p : Int × Int, lmIndex p.1 p.2 w.ellMin = i → modesOf w k p.1 p.2 = r[i]'(by simpa using h1) := by
      intro p hp
      unfold modesOf modeAt
      rw [hr, hp]
      simp only [Option.bind_some, Int.toNat_natCast]
      rw [List.getElem?_eq_getElem (by simpa using h1)]
      rfl
    exact congrArg F (key _ hidx).symm

/-- C22: the energy flux of a waveform of type `hdot` at each time is the sum of the squares of the absolute
values of its modes over `16 pi`. -/
theorem energy_flux (dot : WM ℝ Unit ℂ → WM ℝ Unit ℂ) (w : WM ℝ Unit ℂ) (hw : Valid w) :
    energyFlux Weights.hdot dot w = .ok ((List.range w.t.length).map fun k =>
      (∑ ell ∈ Icc w.ellMin w.ellMax, ∑ m ∈ Icc (-ell) ell, Complex.normSq (modesOf w k ell m)) / (16 * Real.pi)) := by
  have h1 : energyFlux Weights.hdot dot w = .ok (w.data.map energyAt) := rfl
  rw [h1]
  congr 1
  apply List.ext_getElem
  · simp [hw.rows]
  · intro k hk1 hk2
    simp only [List.getElem_map, List.getElem_range]
    have hk : k < w.data.length := by simpa using hk1
    unfold energyAt
    rw [sum_row w hw _ k _ (List.getElem?_eq_getElem hk)]
    congr 1
    rw [Complex.re_sum]
    apply sum_congr rfl; intro ell _
    rw [Complex.re_sum]
    apply sum_congr rfl; intro m _
    rw [mul_comm, Complex.mul_conj, Complex.ofReal_re]

/-- C22: for a strain it is the energy flux of the derivative; anything else is rejected. -/
theorem energy_flux_types (dt : Int) (dot : WM ℝ Unit ℂ → WM ℝ Unit ℂ) (w : WM ℝ Unit ℂ) :
    (dt = Weights.h → energyFlux dt dot w = energyFlux Weights.hdot dot (dot w)) ∧
    (dt ≠ Weights.h → dt ≠ Weights.hdot → energyFlux dt dot w = .error .valueError) := by
  constructor
  · rintro rfl; rfl
  · intro h1 h2
    unfold energyFlux chooseHdot
    rw [if_neg h2, if_neg h1]; rfl

/-- C22: it is never negative, and it vanishes at a time only if all modes do. -/
theorem energy_flux_nonneg (dot : WM ℝ Unit ℂ → WM ℝ Unit ℂ) (w : WM ℝ Unit ℂ) (hw : Valid w) :
    ∃ E, energyFlux Weights.hdot dot w = .ok E ∧ E.length = w.t.length ∧ (∀ e ∈ E, 0 ≤ e) ∧
      ∀ k : Nat, k < w.t.length → (E[k]? = some 0 ↔
        ∀ ell m, w.ellMin ≤ ell → ell ≤ w.ellMax → -ell ≤ m → m ≤ ell → modesOf w k ell m = 0) := by
  refine ⟨_, energy_flux dot w hw, by simp, ?_, ?_⟩
  · intro e he
    obtain ⟨k, _, rfl⟩ := List.mem_map.mp he
    exact div_nonneg (sum_nonneg fun _ _ => sum_nonneg fun _ _ => Complex.normSq_nonneg _) (by positivity)
  · intro k hk
    rw [List.getElem?_map, List.getElem?_range hk]
    simp only [Option.map_some, Option.some.injEq]
    rw [div_eq_zero_iff, or_iff_left (by positivity), sum_eq_zero_iff_of_nonneg (fun _ _ => sum_nonneg fun _ _ => Complex.normSq_nonneg _)]
    constructor
    · intro h ell m h1 h2 h3 h4
      have := h ell (mem_Icc.mpr ⟨h1, h2⟩)
      rw [sum_eq_zero_iff_of_nonneg (fun _ _ => Complex.normSq_nonneg _)] at this
      exact Complex.normSq_eq_zero.mp (this m (mem_Icc.mpr ⟨h3, h4⟩))
    · intro h ell hell
      rw [mem_Icc] at hell
      apply sum_eq_zero
      intro m hm
      rw [mem_Icc] at hm
      rw [h ell m hell.1 hell.2 hm.1 hm.2]; simp

/-- A waveform with all modes of `ell = 2` at two times, for the examples: `(k + 1) (m + i)`. -/
noncomputable def sample : WM ℝ Unit ℂ :=
  ⟨[0, 1], [(), ()], [[1, Complex.I, 2, 0, 3], [0, 0, 0, 0, 0]], 5, 2, 2⟩

theorem sample_valid : Valid sample :=
  ⟨rfl, rfl, by intro r hr; simp [sample] at hr; rcases hr with rfl | rfl <;> rfl, by decide, by decide, by decide⟩

/-- The energy flux of the example: `(1 + 1 + 4 + 0 + 9) / 16 pi`, then zero. -/
example (dot : WM ℝ Unit ℂ → WM ℝ Unit ℂ) : energyFlux Weights.hdot dot sample = .ok [15 / (16 * Real.pi), 0] := by
  have : energyFlux Weights.hdot dot sample = .ok (sample.data.map energyAt) := rfl
  rw [this]
  simp [sample, energyAt]
  norm_num

/-! ### C23: expectation values -/

theorem bracket_congr (a b : Int) (f f' g g' : Fn) (M M' : Int → Int → Int → Int → ℂ)
    (hf : ∀ j n, a ≤ j → j ≤ b → -j ≤ n → n ≤ j → f j n = f' j n) (hg : ∀ j n, a ≤ j → j ≤ b → -j ≤ n → n ≤ j → g j n = g' j n)
    (hM : ∀ j n l m, a ≤ j ∧ j ≤ b → -j ≤ n ∧ n ≤ j → a ≤ l ∧ l ≤ b → -l ≤ m ∧ m ≤ l → M j n l m = M' j n l m) :
    bracket a b f M g = bracket a b f' M' g' := by
  unfold bracket
  apply sum_congr rfl; intro j hj
  apply sum_congr rfl; intro n hn
  apply sum_congr rfl; intro l hl
  apply sum_congr rfl; intro m hm
  rw [mem_Icc] at hj hn hl hm
  rw [hf j n hj.1 hj.2 hn.1 hn.2, hg l m hl.1 hl.2 hm.1 hm.2, hM j n l m hj hn hl hm]

/-- What `interpolate` does, mode by mode: a function of the old times, the values of the mode and the new
times. -/
structure Interpolates (I : List ℝ → (Nat → ℂ) → List ℝ → Nat → ℂ) (interp : WM ℝ Unit ℂ → List ℝ → WM ℝ Unit ℂ) : Prop where
  valid : ∀ w ts, Valid w → Valid (interp w ts)
  t : ∀ w ts, (interp w ts).t = ts
  ellMin : ∀ w ts, (interp w ts).ellMin = w.ellMin
  ellMax : ∀ w ts, (interp w ts).ellMax = w.ellMax
  modes : ∀ w ts k ell m, modesOf (interp w ts) k ell m = I w.t (fun i => modesOf w i ell m) ts k

theorem clipLM_spec (a b : Modes) (allowLM : Bool) (hr : allowLM = true ∨ (a.w.ellMin = b.w.ellMin ∧ a.w.ellMax = b.w.ellMax))
    (hne : max a.w.ellMin b.w.ellMin ≤ min a.w.ellMax b.w.ellMax) :
    clipLM a b allowLM = .ok (max a.w.ellMin b.w.ellMin, min a.w.ellMax b.w.ellMax + 1) := by
  unfold clipLM
  by_cases h : a.w.ellMin ≠ b.w.ellMin ∨ a.w.ellMax ≠ b.w.ellMax
  · rw [if_pos h]
    have : allowLM = true := by
      rcases hr with h' | h'
      · exact h'
      · exfalso; rcases h with h | h
        · exact h h'.1
        · exact h h'.2
    subst this
    simp only [if_true]
    rw [if_neg (by omega)]
  · rw [if_neg h]
    push Not at h
    rw [h.1, h.2, max_self, min_self]

/-- C23: `matrix_expectation_value` of two waveforms with the same spin weight and the same times is, at each
time, the sum `conj(a_jn) M_jnlm b_lm` over all modes that both have — these may differ only with
`allow_LM_differ`. -/
theorem expectation_value_partial (interp : WM ℝ Unit ℂ → List ℝ → WM ℝ Unit ℂ) (a b : Modes) (ha : Valid a.w) (hb : Valid b.w)
    (na : 2 ≤ a.w.nCols) (nb : 2 ≤ b.w.nCols) (hs : a.spin = b.spin) (ht : a.w.t = b.w.t) (allowLM allowT : Bool)
    (hr : allowLM = true ∨ (a.w.ellMin = b.w.ellMin ∧ a.w.ellMax = b.w.ellMax))
    (gen : Int → Int → List Entry) (lo hi : Int) (hlo : lo = max a.w.ellMin b.w.ellMin) (hhi : hi = min a.w.ellMax b.w.ellMax)
    (hle : lo ≤ hi) (hin : Inside lo hi (gen lo hi)) (hne : gen lo hi ≠ []) :
    expectation interp a (dec gen) b allowLM allowT = .ok (a.w.t, (List.range a.w.t.length).map fun k =>
      bracket lo hi (modesOf a.w k) (matEl (gen lo hi)) (modesOf b.w k)) := by
  obtain ⟨A, hA, vA, A1, A2, A3, A4⟩ := clip_spec a.w ha na lo hi (by omega) hle (by omega)
  obtain ⟨B, hB, vB, B1, B2, B3, B4⟩ := clip_spec b.w hb nb lo hi (by omega) hle (by omega)
  have hdec : dec gen lo hi = .ok ((gen lo hi).map fun e => (lmIndex e.j e.n lo, lmIndex e.l e.m lo, e.val)) := by
    unfold dec toMatrix
    rw [if_neg (by simpa using hne)]
  have hsp := sparse_eq A B vA vB (by rw [A1, B1]) (by rw [A2, B2]) (by rw [A3, B3, ht]) (gen lo hi) (by rw [A1, A2]; exact hin)
  rw [A1, A2] at hsp
  unfold expectation
  rw [if_neg (not_not.mpr hs), clipLM_spec a b allowLM hr (by omega), ← hlo, ← hhi]
  unfold clipT
  rw [if_neg (not_not.mpr ht)]
  simp only [ok_bind, add_sub_cancel_right]
  rw [hA, hB, ok_bind, ok_bind, hdec, ok_bind, hsp, ok_bind, A3]
  show Except.ok _ = _
  congr 2
  apply List.map_congr_left
  intro k _
  exact bracket_congr _ _ _ _ _ _ _ _ (A4 k) (B4 k) (fun _ _ _ _ _ _ _ _ => rfl)

/-- C23: with `allow_times_differ` both are first interpolated to the intersection of their times. -/
theorem expectation_value_times_partial (I : List ℝ → (Nat → ℂ) → List ℝ → Nat → ℂ) (interp : WM ℝ Unit ℂ → List ℝ → WM ℝ Unit ℂ)
    (hI : Interpolates I interp)
    (a b : Modes) (ha : Valid a.w) (hb : Valid b.w)
    (na : 2 ≤ a.w.nCols) (nb : 2 ≤ b.w.nCols) (hs : a.spin = b.spin) (ht : a.w.t ≠ b.w.t) (ts : List ℝ)
    (hts : Intersection.intersection a.w.t b.w.t none none none = .ok ts) (allowLM : Bool)
    (hr : allowLM = true ∨ (a.w.ellMin = b.w.ellMin ∧ a.w.ellMax = b.w.ellMax))
    (gen : Int → Int → List Entry) (lo hi : Int) (hlo : lo = max a.w.ellMin b.w.ellMin) (hhi : hi = min a.w.ellMax b.w.ellMax)
    (hle : lo ≤ hi) (hin : Inside lo hi (gen lo hi)) (hne : gen lo hi ≠ []) :
    expectation interp a (dec gen) b allowLM true = .ok (ts, (List.range ts.length).map fun k =>
      bracket lo hi (fun ell m => I a.w.t (fun i => modesOf a.w i ell m) ts k) (matEl (gen lo hi))
        (fun ell m => I b.w.t (fun i => modesOf b.w i ell m) ts k)) := by
  obtain ⟨A, hA, vA, A1, A2, A3, A4, A5⟩ := clip_spec' a.w ha na lo hi (by omega) hle (by omega)
  obtain ⟨B, hB, vB, B1, B2, B3, B4, B5⟩ := clip_spec' b.w hb nb lo hi (by omega) hle (by omega)
  have hdec : dec gen lo hi = .ok ((gen lo hi).map fun e => (lmIndex e.j e.n lo, lmIndex e.l e.m lo, e.val)) := by
    unfold dec toMatrix
    rw [if_neg (by simpa using hne)]
  have hsp := sparse_eq (interp A ts) (interp B ts) (hI.valid _ _ vA) (hI.valid _ _ vB) (by rw [hI.ellMin, hI.ellMin, A1, B1])
    (by rw [hI.ellMax, hI.ellMax, A2, B2]) (by rw [hI.t, hI.t]) (gen lo hi) (by rw [hI.ellMin, hI.ellMax, A1, A2]; exact hin)
  rw [hI.ellMin, hI.ellMax, hI.t, A1, A2] at hsp
  unfold expectation
  rw [if_neg (not_not.mpr hs), clipLM_spec a b allowLM hr (by omega), ← hlo, ← hhi]
  unfold clipT
  rw [if_pos ht, if_pos rfl, hts]
  simp only [ok_bind, pure_eq_ok, add_sub_cancel_right]
  rw [hA, hB, ok_bind, ok_bind]
  show (do
    let entries ← dec gen lo hi
    let v ← sparse ((interp A ts).data.map fun x : List ℂ => x.map conj) (interp B ts).data entries
    pure (ts, v)) = _
  rw [hdec, ok_bind, hsp, ok_bind]
  show Except.ok _ = _
  congr 2
  apply List.map_congr_left
  intro k _
  apply bracket_congr _ _ _ _ _ _ _ _ _ _ (fun _ _ _ _ _ _ _ _ => rfl)
  · intro j n h1 h2 h3 h4
    rw [hI.modes, A5]
    congr 1
    funext i
    exact A4 i j n h1 h2 h3 h4
  · intro j n h1 h2 h3 h4
    rw [hI.modes, B5]
    congr 1
    funext i
    exact B4 i j n h1 h2 h3 h4

/-- C23: the order in which the elements are listed does not matter. -/
theorem expectation_perm (g g' : List Entry) (h : g.Perm g') (j n l m : Int) : matEl g j n l m = matEl g' j n l m := by
  unfold matEl
  exact ((h.filter _).map _).sum_eq

/-- C23: the rejections. -/
theorem expectation_rejects (interp : WM ℝ Unit ℂ → List ℝ → WM ℝ Unit ℂ) (a b : Modes)
    (M : Int → Int → Py (List (Int × Int × ℂ))) (allowLM allowT : Bool)
    (h : a.spin ≠ b.spin ∨
      (allowLM = false ∧ (a.w.ellMin ≠ b.w.ellMin ∨ a.w.ellMax ≠ b.w.ellMax)) ∨
      ((a.w.ellMin ≠ b.w.ellMin ∨ a.w.ellMax ≠ b.w.ellMax) ∧ min a.w.ellMax b.w.ellMax < max a.w.ellMin b.w.ellMin) ∨
      (allowT = false ∧ a.w.t ≠ b.w.t)) :
    expectation interp a M b allowLM allowT = .error .valueError := by
  unfold expectation
  by_cases hs : a.spin ≠ b.spin
  · rw [if_pos hs]; rfl
  rw [if_neg hs]
  by_cases hc : clipLM a b allowLM = .error .valueError
  · simp only [pure_bind]; rw [hc]; rfl
  · have h' : allowT = false ∧ a.w.t ≠ b.w.t := by
      rcases h with h | h | h | h
      · exact absurd h hs
      · exfalso; apply hc
        unfold clipLM
        rw [if_pos h.2, if_neg (by simp [h.1])]
      · exfalso; apply hc
        unfold clipLM
        rw [if_pos h.1]
        split
        · simp only; rw [if_pos (by omega)]
        · rfl
      · exact h
    have hcl : ∃ x, clipLM a b allowLM = .ok x := by
      unfold clipLM at hc ⊢
      split
      · rename_i h1; rw [if_pos h1] at hc
        split
        · rename_i h2; rw [if_pos h2] at hc
          simp only at hc ⊢
          split
          · rename_i h3; rw [if_pos h3] at hc; exact absurd rfl hc
          · exact ⟨_, rfl⟩
        · rename_i h2; rw [if_neg h2] at hc; exact absurd rfl hc
      · exact ⟨_, rfl⟩
    obtain ⟨⟨s, e⟩, hx⟩ := hcl
    have ht : clipT a b allowT = .error .valueError := by
      unfold clipT
      rw [if_pos h'.2, if_neg (by simp [h'.1])]
    simp only [pure_bind]
    rw [hx, ok_bind]
    simp only
    rw [ht]; rfl

/-- C23: selection rules of the momentum operators: `p_z` lists exactly the pairs of modes in range with
`|j - l| ≤ 1` and `n = m`, ... -/
theorem p_z_selection (s a b : Int) (e : Entry) : e ∈ pZ s a b ↔
    (a ≤ e.l ∧ e.l ≤ b ∧ -e.l ≤ e.m ∧ e.m ≤ e.l) ∧ (a ≤ e.j ∧ e.j ≤ b ∧ -e.j ≤ e.n ∧ e.n ≤ e.j) ∧ |e.j - e.l| ≤ 1 ∧ e.n = e.m ∧
      e.val = ((Real.sqrt ((2 * e.l + 1) / (2 * e.j + 1)) * cg e.l e.m 0 e.j * cg e.l (-s) 0 e.j : ℝ) : ℂ) := by
  rw [pZ_eq, mem_ellLoop, abs_le]
  constructor
  · rintro ⟨h1, h2, h3, h4, h5, h6⟩
    exact ⟨by omega, by omega, by omega, by omega, h6⟩
  · rintro ⟨h1, h2, h3, h4, h5⟩
    exact ⟨by omega, by omega, by omega, by omega, by omega, h5⟩

/-- ... `p_plus` and `p_minus` those with `|j - l| ≤ 1` and `n = m ± 1`, ... -/
theorem p_plusminus_selection (sign s a b : Int) (e : Entry) : e ∈ pPM sign s a b ↔
    (a ≤ e.l ∧ e.l ≤ b ∧ -e.l ≤ e.m ∧ e.m ≤ e.l) ∧ (a ≤ e.j ∧ e.j ≤ b ∧ -e.j ≤ e.n ∧ e.n ≤ e.j) ∧ |e.j - e.l| ≤ 1 ∧
      e.n = e.m + sign ∧ e.val = ((-1 * sign * Real.sqrt (8 * Real.pi / 3) * swshYMatEl s e.j sign e.l e.m : ℝ) : ℂ) := by
  unfold pPM
  simp only
  rw [mem_ellLoop, abs_le]
  constructor
  · rintro ⟨h1, h2, h3, h4, h5, h6⟩
    exact ⟨by omega, by omega, by omega, by omega, h6⟩
  · rintro ⟨h1, h2, h3, h4, h5⟩
    exact ⟨by omega, by omega, by omega, by omega, by omega, h5⟩

/-- ... `j_z` those with `j = l`, `n = m`, ... -/
theorem j_z_selection (a b : Int) (e : Entry) : e ∈ jZ a b ↔
    (a ≤ e.l ∧ e.l ≤ b ∧ -e.l ≤ e.m ∧ e.m ≤ e.l) ∧ e.j = e.l ∧ e.n = e.m ∧ e.val = Complex.I * e.m := by
  rw [mem_jZ]; tauto

/-- ... and `j_plus`, `j_minus` those with `j = l`, `n = m ± 1`. -/
theorem j_plusminus_selection (sign a b : Int) (e : Entry) : e ∈ jPM sign a b ↔
    (a ≤ e.l ∧ e.l ≤ b ∧ -e.l ≤ e.m ∧ e.m ≤ e.l) ∧ e.j = e.l ∧ (-e.l ≤ e.n ∧ e.n ≤ e.l) ∧ e.n = e.m + sign ∧
      e.val = Complex.I * (ladder e.l (e.m * sign) : ℂ) := by
  rw [mem_jPM]
  constructor
  · rintro ⟨h1, h2, h3, h4, h5, h6⟩; exact ⟨by omega, h2, by omega, h5, h6⟩
  · rintro ⟨h1, h2, h3, h4, h5⟩; exact ⟨by omega, h2, by omega, by omega, h4, h5⟩

/-- C23: so every element the six operators list is between modes in range; `expectation_value_partial` applies. -/
theorem operators_inside (s a b : Int) : Inside a b (pZ s a b) ∧ Inside a b (pPM 1 s a b) ∧ Inside a b (pPM (-1) s a b) ∧
    Inside a b (jZ a b) ∧ Inside a b (jPM 1 a b) ∧ Inside a b (jPM (-1) a b) := by
  refine ⟨?_, ?_, ?_, ?_, ?_, ?_⟩ <;> intro e he
  · rw [p_z_selection] at he; omega
  · rw [p_plusminus_selection] at he; omega
  · rw [p_plusminus_selection] at he; omega
  · rw [j_z_selection] at he; omega
  · rw [j_plusminus_selection] at he; omega
  · rw [j_plusminus_selection] at he; omega

/-- ... and they list something whenever there is a mode with `ell ≥ 1`, ... -/
theorem operators_nonempty (s a b : Int) (hab : a ≤ b) (hb : 1 ≤ b) : pZ s a b ≠ [] ∧ pPM 1 s a b ≠ [] ∧ pPM (-1) s a b ≠ [] ∧
    jZ a b ≠ [] ∧ jPM 1 a b ≠ [] ∧ jPM (-1) a b ≠ [] := by
  refine ⟨?_, ?_, ?_, ?_, ?_, ?_⟩
  · exact List.ne_nil_of_mem ((p_z_selection s a b ⟨b, 0, b, 0, ((Real.sqrt ((2 * b + 1) / (2 * b + 1)) * cg b 0 0 b * cg b (-s) 0 b : ℝ) : ℂ)⟩).mpr ⟨by simp; omega, by simp; omega, by simp, rfl, rfl⟩)
  · exact List.ne_nil_of_mem ((p_plusminus_selection 1 s a b ⟨b, 1, b, 0, ((-1 * (1 : Int) * Real.sqrt (8 * Real.pi / 3) * swshYMatEl s b 1 b 0 : ℝ) : ℂ)⟩).mpr ⟨by simp; omega, by simp; omega, by simp, rfl, rfl⟩)
  · exact List.ne_nil_of_mem ((p_plusminus_selection (-1) s a b ⟨b, -1, b, 0, ((-1 * (-1 : Int) * Real.sqrt (8 * Real.pi / 3) * swshYMatEl s b (-1) b 0 : ℝ) : ℂ)⟩).mpr ⟨by simp; omega, by simp; omega, by simp, rfl, rfl⟩)
  · exact List.ne_nil_of_mem ((j_z_selection a b ⟨b, 0, b, 0, Complex.I * (0 : Int)⟩).mpr ⟨by simp; omega, rfl, rfl, rfl⟩)
  · exact List.ne_nil_of_mem ((j_plusminus_selection 1 a b ⟨b, 1, b, 0, Complex.I * (ladder b (0 * 1) : ℂ)⟩).mpr ⟨by simp; omega, rfl, by simp; omega, rfl, rfl⟩)
  · exact List.ne_nil_of_mem ((j_plusminus_selection (-1) a b ⟨b, -1, b, 0, Complex.I * (ladder b (0 * -1) : ℂ)⟩).mpr ⟨by simp; omega, rfl, by simp; omega, rfl, rfl⟩)

/-- ... but an operator that lists nothing makes the code fail instead of giving zero: so do `p_plus` and
`j_plus` on a waveform with only `ell = 0`. -/
theorem empty_operator (sign s : Int) (hs : sign = 1 ∨ sign = -1) : dec (pPM sign s) 0 0 = .error .valueError ∧
    dec (jPM sign) 0 0 = .error .valueError := by
  constructor
  · have : pPM sign s 0 0 = [] := by
      rw [List.eq_nil_iff_forall_not_mem]
      intro e he
      rw [p_plusminus_selection] at he
      omega
    unfold dec toMatrix; rw [this]; rfl
  · have : jPM sign 0 0 = [] := by
      rw [List.eq_nil_iff_forall_not_mem]
      intro e he
      rw [j_plusminus_selection] at he
      omega
    unfold dec toMatrix; rw [this]; rfl

/-- C23: a waveform with a single mode is rejected by the slicing it starts with. -/
theorem expectation_one_mode (interp : WM ℝ Unit ℂ → List ℝ → WM ℝ Unit ℂ) (a : Modes)
    (M : Int → Int → Py (List (Int × Int × ℂ))) (allowLM allowT : Bool) (hn : a.w.nCols < 2) :
    ∃ e, expectation interp a M a allowLM allowT = .error e := by
  obtain ⟨e, he⟩ := Verif.Props.Slicing.getitem_few_modes a.w hn (.slice ⟨none, none, none⟩) ⟨some a.w.ellMin, some (a.w.ellMax + 1), none⟩
  refine ⟨e, ?_⟩
  unfold expectation
  rw [if_neg (by simp)]
  have h1 : clipLM a a allowLM = .ok (a.w.ellMin, a.w.ellMax + 1) := by
    unfold clipLM; rw [if_neg (by simp)]
  have h2 : clipT a a allowT = .ok none := by
    unfold clipT; rw [if_neg (by simp)]
  rw [h1, h2]
  simp only [pure_bind, ok_bind]
  rw [he]; rfl

/-- The example waveform and its own square: `⟨sample| j_z |sample⟩` exists and is `i Σ m |a_m|²`. -/
example (interp : WM ℝ Unit ℂ → List ℝ → WM ℝ Unit ℂ) :
    expectation interp ⟨-2, sample⟩ (dec jZ) ⟨-2, sample⟩ false false = .ok ([0, 1], (List.range 2).map fun k =>
      bracket 2 2 (modesOf sample k) (matEl (jZ 2 2)) (modesOf sample k)) :=
  expectation_value_partial interp ⟨-2, sample⟩ ⟨-2, sample⟩ sample_valid sample_valid (by decide) (by decide) rfl rfl false false
    (Or.inr ⟨rfl, rfl⟩) jZ 2 2 rfl rfl (by decide) (operators_inside 0 2 2).2.2.2.1
    (operators_nonempty 0 2 2 (by decide) (by decide)).2.2.2.1

/-! ### C54: the momentum flux -/

/-- The Hermitian conjugate of an operator. -/
theorem bracket_conj (a b : Int) (f g : Fn) (M M' : Int → Int → Int → Int → ℂ)
    (h : ∀ j n l m, a ≤ j ∧ j ≤ b → -j ≤ n ∧ n ≤ j → a ≤ l ∧ l ≤ b → -l ≤ m ∧ m ≤ l → conj (M j n l m) = M' l m j n) :
    conj (bracket a b f M g) = bracket a b g M' f := by
  have e1 : ∀ (f g : Fn) (M : Int → Int → Int → Int → ℂ), bracket a b f M g =
      ∑ x ∈ (Icc a b).sigma (fun j => Icc (-j) j), ∑ y ∈ (Icc a b).sigma (fun j => Icc (-j) j),
        conj (f x.1 x.2) * M x.1 x.2 y.1 y.2 * g y.1 y.2 := by
    intro f g M
    unfold bracket
    rw [sum_sigma]
    apply sum_congr rfl; intro j _
    apply sum_congr rfl; intro n _
    rw [sum_sigma]
  rw [e1, e1, map_sum, sum_comm]
  simp only [map_sum, map_mul, Complex.conj_conj]
  apply sum_congr rfl; intro x hx
  apply sum_congr rfl; intro y hy
  simp only [mem_sigma, mem_Icc] at hx hy
  rw [h x.1 x.2 y.1 y.2 hx.1 hx.2 hy.1 hy.2]; ring

/-- C54: `p_z` is Hermitian: its expectation values are real, ... -/
theorem p_z_hermitian (s a b : Int) (f g : Fn) :
    conj (bracket a b f (matEl (pZ s a b)) g) = bracket a b g (matEl (pZ s a b)) f := by
  apply bracket_conj
  intro j n l m hj hn hl hm
  rw [matEl_pZ s a b j n l m hj hn hl hm, matEl_pZ s a b l m j n hl hm hj hn]
  by_cases h : n = m
  · subst h
    rw [if_pos rfl, if_pos rfl, Complex.conj_ofReal, el_herm s 0 j l n (by decide)]
    simp [pm]
  · rw [if_neg h, if_neg (fun h' => h h'.symm)]; simp

/-- ... and `p_minus` is the conjugate of `p_plus`. -/
theorem p_plus_conj (s a b : Int) (f g : Fn) :
    conj (bracket a b f (matEl (pPM 1 s a b)) g) = bracket a b g (matEl (pPM (-1) s a b)) f := by
  apply bracket_conj
  intro j n l m hj hn hl hm
  rw [matEl_pPM 1 s a b j n l m hj hn hl hm, matEl_pPM (-1) s a b l m j n hl hm hj hn]
  by_cases h : n = m + 1
  · subst h
    rw [if_pos rfl, if_pos (by ring), Complex.conj_ofReal, el_herm s 1 j l m (by decide)]
    simp [pm]
  · rw [if_neg h, if_neg (by omega)]; simp

/-- C54: the elements of `p_z` are those of `cos θ` between spin-weighted harmonics. -/
theorem p_z_elements (s a b l m : Int) (hl : a ≤ l ∧ l ≤ b) (hm : -l ≤ m ∧ m ≤ l) (hs : -l ≤ s ∧ s ≤ l) :
    (l + 1 ≤ b → matEl (pZ s a b) (l + 1) m l m =
      ((√(((l + 1) ^ 2 - m ^ 2) * ((l + 1) ^ 2 - s ^ 2) : ℝ) / ((l + 1) * √((2 * l + 1) * (2 * l + 3) : ℝ)) : ℝ) : ℂ)) ∧
    (1 ≤ l → matEl (pZ s a b) l m l m = ((-((m : ℝ) * s) / (l * (l + 1)) : ℝ) : ℂ)) := by
  constructor
  · intro h
    rw [matEl_pZ s a b (l + 1) m l m (by omega) (by omega) hl hm, if_pos rfl, el_zero_up s l m hm hs]
  · intro h
    rw [matEl_pZ s a b l m l m hl hm hl hm, if_pos rfl, el_zero_same s l m h hm hs]

/-- C54: `p_plus` is the commutator of `p_z` with the raising operator, as `sin θ exp(iφ)` is of `cos θ`, ... -/
theorem p_plus_commutator (s a b j l m : Int) (hj : a ≤ j ∧ j ≤ b) (hl : a ≤ l ∧ l ≤ b) (hm : -l ≤ m ∧ m ≤ l)
    (hn : -j ≤ m + 1 ∧ m + 1 ≤ j) :
    matEl (pPM 1 s a b) j (m + 1) l m =
      matEl (pZ s a b) j (m + 1) l (m + 1) * ladder l m - ladder j m * matEl (pZ s a b) j m l m := by
  have h := el_comm s j l m hm hn
  have z1 : (matEl (pZ s a b) j (m + 1) l (m + 1)) * ladder l m = ((el s 0 j l (m + 1) * ladder l m : ℝ) : ℂ) := by
    by_cases h1 : m + 1 ≤ l
    · rw [matEl_pZ s a b j (m + 1) l (m + 1) hj hn hl (by omega), if_pos rfl]; push_cast; ring
    · have : m = l := by omega
      subst this; rw [ladder_top]; simp
  have z2 : ladder j m * (matEl (pZ s a b) j m l m) = ((ladder j m * el s 0 j l m : ℝ) : ℂ) := by
    by_cases h1 : -j ≤ m
    · rw [matEl_pZ s a b j m l m hj (by omega) hl hm, if_pos rfl]; push_cast; ring
    · have : m = -j - 1 := by omega
      subst this; rw [ladder_bot]; simp
  rw [z1, z2, matEl_pPM 1 s a b j (m + 1) l m hj hn hl hm, if_pos rfl, ← Complex.ofReal_sub, ← h]
  push_cast; ring

/-- ... and `p_minus` is that of the lowering operator with `p_z`. -/
theorem p_minus_commutator (s a b j l m : Int) (hj : a ≤ j ∧ j ≤ b) (hl : a ≤ l ∧ l ≤ b) (hm : -l ≤ m ∧ m ≤ l)
    (hn : -j ≤ m - 1 ∧ m - 1 ≤ j) :
    matEl (pPM (-1) s a b) j (m - 1) l m =
      ladder j (m - 1) * matEl (pZ s a b) j m l m - matEl (pZ s a b) j (m - 1) l (m - 1) * ladder l (m - 1) := by
  have h := el_comm' s j l m hm hn
  have z1 : (matEl (pZ s a b) j (m - 1) l (m - 1)) * ladder l (m - 1) = ((el s 0 j l (m - 1) * ladder l (m - 1) : ℝ) : ℂ) := by
    by_cases h1 : -l ≤ m - 1
    · rw [matEl_pZ s a b j (m - 1) l (m - 1) hj hn hl (by omega), if_pos rfl]; push_cast; ring
    · have : m = -l := by omega
      subst this; rw [ladder_bot]; simp
  have z2 : ladder j (m - 1) * (matEl (pZ s a b) j m l m) = ((ladder j (m - 1) * el s 0 j l m : ℝ) : ℂ) := by
    by_cases h1 : m ≤ j
    · rw [matEl_pZ s a b j m l m hj (by omega) hl hm, if_pos rfl]; push_cast; ring
    · have : m - 1 = j := by omega
      rw [this, ladder_top]; simp
  rw [z1, z2, matEl_pPM (-1) s a b j (m - 1) l m hj hn hl hm, if_pos (by ring), ← Complex.ofReal_sub, ← h]
  push_cast; ring

theorem cauchy3 (n1 n2 n3 x1 x2 x3 : ℝ) (h : n1 ^ 2 + n2 ^ 2 + n3 ^ 2 = 1) :
    (n1 * x1 + n2 * x2 + n3 * x3) ^ 2 ≤ x1 ^ 2 + x2 ^ 2 + x3 ^ 2 := by
  have : (n1 ^ 2 + n2 ^ 2 + n3 ^ 2) * (x1 ^ 2 + x2 ^ 2 + x3 ^ 2) - (n1 * x1 + n2 * x2 + n3 * x3) ^ 2 =
      (n1 * x2 - n2 * x1) ^ 2 + (n1 * x3 - n3 * x1) ^ 2 + (n2 * x3 - n3 * x2) ^ 2 := by ring
  rw [h, one_mul] at this
  nlinarith [sq_nonneg (n1 * x2 - n2 * x1), sq_nonneg (n1 * x3 - n3 * x1), sq_nonneg (n2 * x3 - n3 * x2)]

/-- One mode's share in the momentum along a direction. -/
theorem share (v w1 w0 wm : ℂ) (n1 n2 n3 : ℝ) (h : n1 ^ 2 + n2 ^ 2 + n3 ^ 2 = 1) :
    2 * (n1 * (1 / 2 * ((-Real.sqrt 2 * (conj v * w1)).re + (Real.sqrt 2 * (conj v * wm)).re)) +
      n2 * (1 / 2 * ((-Real.sqrt 2 * (conj v * w1)).im - (Real.sqrt 2 * (conj v * wm)).im)) + n3 * (conj v * w0).re) ≤
      Complex.normSq v + (Complex.normSq w1 + Complex.normSq w0 + Complex.normSq wm) := by
  obtain ⟨a, b⟩ := v
  obtain ⟨p1, q1⟩ := w1
  obtain ⟨p0, q0⟩ := w0
  obtain ⟨pm, qm⟩ := wm
  have hr : Real.sqrt 2 ^ 2 = 2 := Real.sq_sqrt (by norm_num)
  have hrp : 0 < Real.sqrt 2 := Real.sqrt_pos.mpr (by norm_num)
  simp only [Complex.normSq_mk, Complex.mul_re, Complex.mul_im, Complex.neg_re, Complex.neg_im, Complex.ofReal_re, Complex.ofReal_im,
    Complex.conj_re, Complex.conj_im]
  generalize Real.sqrt 2 = r at hr hrp
  -- the three vectors
  have c1 := cauchy3 n1 n2 n3 (r / 2 * (pm - p1)) (-(r / 2) * (q1 + qm)) p0 h
  have c2 := cauchy3 n1 n2 n3 (r / 2 * (qm - q1)) (r / 2 * (p1 + pm)) q0 h
  have e1 : (r / 2 * (pm - p1)) ^ 2 + (-(r / 2) * (q1 + qm)) ^ 2 + (r / 2 * (qm - q1)) ^ 2 + (r / 2 * (p1 + pm)) ^ 2 =
      p1 ^ 2 + q1 ^ 2 + pm ^ 2 + qm ^ 2 := by
    have : (r / 2) ^ 2 = 1 / 2 := by rw [div_pow, hr]; norm_num
    linear_combination (2 * (p1 ^ 2 + q1 ^ 2 + pm ^ 2 + qm ^ 2)) * this
  have s1 := sq_nonneg (a - (n1 * (r / 2 * (pm - p1)) + n2 * (-(r / 2) * (q1 + qm)) + n3 * p0))
  have s2 := sq_nonneg (b - (n1 * (r / 2 * (qm - q1)) + n2 * (r / 2 * (p1 + pm)) + n3 * q0))
  nlinarith

/-- C54: the momentum radiated per unit time is never larger than the energy, for any modes. -/
theorem momentum_bound (s a b : Int) (ha : 0 ≤ a) (v : Fn) (p m z : ℂ)
    (hp : p = bracket a b v (matEl (pPM 1 s a b)) v) (hm : m = bracket a b v (matEl (pPM (-1) s a b)) v)
    (hz : z = bracket a b v (matEl (pZ s a b)) v) (c : ℝ) (hc : 0 < c) :
    Real.sqrt ((toXYZ c p m z).1 ^ 2 + (toXYZ c p m z).2.1 ^ 2 + (toXYZ c p m z).2.2 ^ 2) ≤
      (∑ l ∈ Icc a b, ∑ m ∈ Icc (-l) l, Complex.normSq (v l m)) / c := by
  set E := ∑ l ∈ Icc a b, ∑ m ∈ Icc (-l) l, Complex.normSq (v l m) with hE
  have hE0 : 0 ≤ E := sum_nonneg fun _ _ => sum_nonneg fun _ _ => Complex.normSq_nonneg _
  -- the three brackets as inner products
  have hp' : p = inner a b v (fun j n => -Real.sqrt 2 * apply a b 1 (el s 1) v j n) := by
    rw [hp, bracket_apply a b 1 (fun j l m => -Real.sqrt 2 * el s 1 j l m) (fun j l m h => by simp only [el_out h]; ring)]
    · congr 1; funext j n; unfold apply; rw [mul_sum]
      apply sum_congr rfl; intro l _; push_cast; ring
    · intro j n l m hj hn hl hm
      rw [matEl_pPM 1 s a b j n l m hj hn hl hm]; simp
  have hm' : m = inner a b v (fun j n => Real.sqrt 2 * apply a b (-1) (el s (-1)) v j n) := by
    rw [hm, bracket_apply a b (-1) (fun j l m => Real.sqrt 2 * el s (-1) j l m) (fun j l m h => by simp only [el_out h]; ring)]
    · congr 1; funext j n; unfold apply; rw [mul_sum]
      apply sum_congr rfl; intro l _; push_cast; ring
    · intro j n l m hj hn hl hm
      rw [matEl_pPM (-1) s a b j n l m hj hn hl hm]; simp
  have hz' : z = inner a b v (apply a b 0 (el s 0) v) := by
    rw [hz, bracket_apply a b 0 (el s 0) (fun j l m h => el_out h)]
    intro j n l m hj hn hl hm
    rw [matEl_pZ s a b j n l m hj hn hl hm, add_zero]
  have dir : ∀ n1 n2 n3 : ℝ, n1 ^ 2 + n2 ^ 2 + n3 ^ 2 = 1 →
      n1 * (1 / 2 * (p.re + m.re)) + n2 * (1 / 2 * (p.im - m.im)) + n3 * z.re ≤ E := by
    intro n1 n2 n3 hn
    have hb := el_bound s a b ha v
    have hsum : 2 * (n1 * (1 / 2 * (p.re + m.re)) + n2 * (1 / 2 * (p.im - m.im)) + n3 * z.re) ≤
        E + ∑ lp ∈ Icc a b, ∑ M ∈ Icc (-lp) lp, ∑ q ∈ Icc (-1 : Int) 1, Complex.normSq (apply a b q (el s q) v lp M) := by
      rw [hp', hm', hz', hE]
      unfold Verif.Spec.AngMom.inner
      simp only [Complex.re_sum, Complex.im_sum, ← sum_add_distrib, ← sum_sub_distrib, mul_sum]
      apply sum_le_sum; intro j _
      apply sum_le_sum; intro n _
      have := share (v j n) (apply a b 1 (el s 1) v j n) (apply a b 0 (el s 0) v j n) (apply a b (-1) (el s (-1)) v j n) n1 n2 n3 hn
      rw [sum_q, mul_left_comm (conj (v j n)) (-(Real.sqrt 2 : ℂ)), mul_left_comm (conj (v j n)) (Real.sqrt 2 : ℂ)]
      linarith
    linarith
  -- choose the direction of the momentum
  set P1 := 1 / 2 * (p.re + m.re) with hP1
  set P2 := 1 / 2 * (p.im - m.im) with hP2
  set P3 := z.re with hP3
  have hN : Real.sqrt (P1 ^ 2 + P2 ^ 2 + P3 ^ 2) ≤ E := by
    have hsq : Real.sqrt (P1 ^ 2 + P2 ^ 2 + P3 ^ 2) ^ 2 = P1 ^ 2 + P2 ^ 2 + P3 ^ 2 := Real.sq_sqrt (by positivity)
    rcases (Real.sqrt_nonneg (P1 ^ 2 + P2 ^ 2 + P3 ^ 2)).eq_or_lt with h0 | h0
    · rw [← h0]; exact hE0
    · generalize Real.sqrt (P1 ^ 2 + P2 ^ 2 + P3 ^ 2) = N at h0 hsq
      have := dir (P1 / N) (P2 / N) (P3 / N) (by
        rw [div_pow, div_pow, div_pow, ← add_div, ← add_div, hsq]; exact div_self (by rw [← hsq]; positivity))
      have e : P1 / N * P1 + P2 / N * P2 + P3 / N * P3 = N := by
        field_simp; linarith
      rw [e] at this; exact this
  have hxyz : (toXYZ c p m z).1 ^ 2 + (toXYZ c p m z).2.1 ^ 2 + (toXYZ c p m z).2.2 ^ 2 = (P1 ^ 2 + P2 ^ 2 + P3 ^ 2) / c ^ 2 := by
    unfold toXYZ; simp only [← hP1, ← hP2, ← hP3]; field_simp
  rw [hxyz, Real.sqrt_div (by positivity), Real.sqrt_sq hc.le]
  exact div_le_div_of_nonneg_right hN hc.le

theorem combine_range (c : ℝ) (n : Nat) (p m z : Nat → ℂ) :
    combine c ((List.range n).map p) ((List.range n).map m) ((List.range n).map z) =
      (List.range n).map fun k => toXYZ c (p k) (m k) (z k) := by
  unfold combine
  apply List.ext_getElem
  · simp
  · intro k h1 h2
    simp

theorem range_facts {w : WM ℝ Unit ℂ} (hw : Valid w) (hn : 2 ≤ w.nCols) : w.ellMin ≤ w.ellMax ∧ 1 ≤ w.ellMax := by
  have h1 := hw.modes
  have h2 := hw.min
  have h3 := hw.max
  constructor
  · by_contra h
    have : w.ellMax = w.ellMin - 1 := by omega
    rw [this] at h1
    ring_nf at h1; omega
  · by_contra h
    have h5 : 0 ≤ w.ellMax + 1 := by omega
    have h6 : w.ellMax + 1 ≤ 1 := by omega
    nlinarith [sq_nonneg w.ellMin]

/-- C54: the momentum flux is the real vector with `p_x ± i p_y = ⟨p_±⟩`, `p_z = ⟨p_z⟩`, over `16 pi`, ... -/
theorem momentum_flux (interp : WM ℝ Unit ℂ → List ℝ → WM ℝ Unit ℂ) (dt spin : Int) (dot : WM ℝ Unit ℂ → WM ℝ Unit ℂ)
    (w hd : WM ℝ Unit ℂ) (hc : chooseHdot dt dot w = .ok hd) (hv : Valid hd) (hn : 2 ≤ hd.nCols) :
    momentumFlux interp dt spin dot w = .ok ((List.range hd.t.length).map fun k =>
      let v := modesOf hd k
      ((bracket hd.ellMin hd.ellMax v (matEl (pPM 1 (-2) hd.ellMin hd.ellMax)) v).re / (16 * Real.pi),
       (bracket hd.ellMin hd.ellMax v (matEl (pPM 1 (-2) hd.ellMin hd.ellMax)) v).im / (16 * Real.pi),
       (bracket hd.ellMin hd.ellMax v (matEl (pZ (-2) hd.ellMin hd.ellMax)) v).re / (16 * Real.pi))) := by
  obtain ⟨r1, r2⟩ := range_facts hv hn
  have hin := operators_inside (-2) hd.ellMin hd.ellMax
  have hne := operators_nonempty (-2) hd.ellMin hd.ellMax r1 r2
  have ex := fun gen (h1 : Inside hd.ellMin hd.ellMax (gen hd.ellMin hd.ellMax)) h2 =>
    expectation_value_partial interp ⟨spin, hd⟩ ⟨spin, hd⟩ hv hv hn hn rfl rfl false false (Or.inr ⟨rfl, rfl⟩) gen hd.ellMin hd.ellMax
      (max_self _).symm (min_self _).symm r1 h1 h2
  unfold momentumFlux
  rw [hc, ok_bind, ex _ hin.2.1 hne.2.1, ok_bind, ex _ hin.2.2.1 hne.2.2.1, ok_bind, ex _ hin.1 hne.1, ok_bind]
  show Except.ok _ = _
  simp only
  rw [combine_range]
  congr 1
  apply List.map_congr_left
  intro k _
  simp only [← p_plus_conj, toXYZ, Complex.conj_re, Complex.conj_im]
  refine Prod.ext ?_ (Prod.ext ?_ rfl)
  · simp only; ring
  · simp only; ring

/-- C54: and its magnitude never exceeds the energy flux. -/
theorem momentum_le_energy (interp : WM ℝ Unit ℂ → List ℝ → WM ℝ Unit ℂ) (dt spin : Int) (dot : WM ℝ Unit ℂ → WM ℝ Unit ℂ)
    (w hd : WM ℝ Unit ℂ) (hc : chooseHdot dt dot w = .ok hd) (hv : Valid hd) (hn : 2 ≤ hd.nCols) :
    ∃ P E, momentumFlux interp dt spin dot w = .ok P ∧ energyFlux dt dot w = .ok E ∧ P.length = hd.t.length ∧ E.length = hd.t.length ∧
      ∀ (k : Nat) p e, P[k]? = some p → E[k]? = some e → Real.sqrt (p.1 ^ 2 + p.2.1 ^ 2 + p.2.2 ^ 2) ≤ e := by
  have hE : energyFlux dt dot w = energyFlux Weights.hdot dot hd := by
    have e1 : energyFlux Weights.hdot dot hd = .ok (hd.data.map energyAt) := rfl
    unfold energyFlux
    rw [hc]; rfl
  refine ⟨_, _, momentum_flux interp dt spin dot w hd hc hv hn, hE.trans (energy_flux dot hd hv), by simp, by simp, ?_⟩
  intro k p e hp he
  rw [List.getElem?_map] at hp he
  rcases Nat.lt_or_ge k hd.t.length with hk | hk
  · rw [List.getElem?_range hk, Option.map_some, Option.some.injEq] at hp he
    subst hp; subst he
    have := momentum_bound (-2) hd.ellMin hd.ellMax hv.min (modesOf hd k) _ _ _ rfl rfl rfl (16 * Real.pi) (by positivity)
    simp only [← p_plus_conj, toXYZ, Complex.conj_re, Complex.conj_im] at this
    convert this using 5 <;> ring
  · rw [List.getElem?_eq_none (by simpa using hk)] at hp
    cases hp

/-- Non-vacuity: the example waveform. -/
example (interp : WM ℝ Unit ℂ → List ℝ → WM ℝ Unit ℂ) (dot : WM ℝ Unit ℂ → WM ℝ Unit ℂ) :
    ∃ P E, momentumFlux interp Weights.hdot (-2) dot sample = .ok P ∧ energyFlux Weights.hdot dot sample = .ok E ∧
      P.length = 2 ∧ E.length = 2 := by
  obtain ⟨P, E, h1, h2, h3, h4, _⟩ := momentum_le_energy interp Weights.hdot (-2) dot sample sample rfl sample_valid (by decide)
  exact ⟨P, E, h1, h2, h3, h4⟩

/-! ### C55: the angular momentum flux -/

/-- The sum in the angular momentum flux. -/
theorem angular_xyz (a b : Int) (f g : Fn) (c : ℝ) (hc : c ≠ 0) :
    toXYZ (-c) (bracket a b f (matEl (jPM 1 a b)) g) (bracket a b f (matEl (jPM (-1) a b)) g) (bracket a b f (matEl (jZ a b)) g) =
      ((inner a b f (L 0 g)).im / c, (inner a b f (L 1 g)).im / c, (inner a b f (L 2 g)).im / c) := by
  rw [bracket_jp, bracket_jm, bracket_jz, inner_L0, inner_L1]
  generalize inner a b f (raise g) = x
  generalize inner a b f (lower g) = y
  generalize inner a b f (L 2 g) = z
  unfold toXYZ
  refine Prod.ext ?_ (Prod.ext ?_ ?_)
  · simp only [Complex.mul_re, Complex.mul_im, Complex.I_re, Complex.I_im, Complex.add_im, Complex.add_re]
    norm_num
    field_simp; ring
  · simp only [Complex.mul_re, Complex.mul_im, Complex.I_re, Complex.I_im, Complex.sub_im, Complex.sub_re]
    norm_num
    field_simp
  · simp only [Complex.mul_re, Complex.I_re, Complex.I_im]
    norm_num

/-- C55: the angular momentum flux of a strain at each time has the components `Im ⟨hdot| L_a |h⟩ / 16 pi`. -/
theorem angular_momentum_flux (interp : WM ℝ Unit ℂ → List ℝ → WM ℝ Unit ℂ) (spin : Int) (dot : WM ℝ Unit ℂ → WM ℝ Unit ℂ)
    (h : WM ℝ Unit ℂ) (hdot : Option (Int × Modes)) (d : Modes)
    (hd : (hdot = none ∧ d = ⟨spin, dot h⟩) ∨ hdot = some (Weights.hdot, d)) (hs : d.spin = spin)
    (hv : Valid h) (hn : 2 ≤ h.nCols) (dv : Valid d.w) (dn : 2 ≤ d.w.nCols) (ht : d.w.t = h.t)
    (hmin : d.w.ellMin = h.ellMin) (hmax : d.w.ellMax = h.ellMax) :
    angularMomentumFlux interp Weights.h spin dot h hdot = .ok ((List.range h.t.length).map fun k =>
      ((inner h.ellMin h.ellMax (modesOf d.w k) (L 0 (modesOf h k))).im / (16 * Real.pi),
       (inner h.ellMin h.ellMax (modesOf d.w k) (L 1 (modesOf h k))).im / (16 * Real.pi),
       (inner h.ellMin h.ellMax (modesOf d.w k) (L 2 (modesOf h k))).im / (16 * Real.pi))) := by
  obtain ⟨r1, r2⟩ := range_facts hv hn
  have hin := operators_inside (-2) h.ellMin h.ellMax
  have hne := operators_nonempty (-2) h.ellMin h.ellMax r1 r2
  have ex := fun gen (h1 : Inside h.ellMin h.ellMax (gen h.ellMin h.ellMax)) h2 =>
    expectation_value_partial interp d ⟨spin, h⟩ dv hv dn hn hs ht false false (Or.inr ⟨hmin, hmax⟩) gen h.ellMin h.ellMax
      (by rw [hmin]; exact (max_self _).symm) (by rw [hmax]; exact (min_self _).symm) r1 h1 h2
  have hchoose : givenHdot spin dot h hdot = .ok d := by
    rcases hd with ⟨h1, h2⟩ | h1
    · rw [h1, h2]; rfl
    · rw [h1]; rfl
  have step : angularMomentumFlux interp Weights.h spin dot h hdot = (do
    let hd ← givenHdot spin dot h hdot
    let p ← expectation interp hd (dec (jPM 1)) ⟨spin, h⟩ false false
    let m ← expectation interp hd (dec (jPM (-1))) ⟨spin, h⟩ false false
    let z ← expectation interp hd (dec jZ) ⟨spin, h⟩ false false
    pure (combine (-16 * Real.pi) p.2 m.2 z.2)) := rfl
  rw [step, hchoose, ok_bind, ex _ hin.2.2.2.2.1 hne.2.2.2.2.1, ok_bind, ex _ hin.2.2.2.2.2 hne.2.2.2.2.2, ok_bind,
    ex _ hin.2.2.2.1 hne.2.2.2.1, ok_bind]
  show Except.ok _ = _
  simp only
  rw [combine_range, ht]
  congr 1
  apply List.map_congr_left
  intro k _
  rw [show (-16 * Real.pi : ℝ) = -(16 * Real.pi) by ring]
  exact angular_xyz _ _ _ _ _ (by positivity)

/-- C55: anything but a strain is rejected, and so is a derivative of the wrong type. -/
theorem angular_momentum_flux_types (interp : WM ℝ Unit ℂ → List ℝ → WM ℝ Unit ℂ) (dt spin : Int) (dot : WM ℝ Unit ℂ → WM ℝ Unit ℂ)
    (h : WM ℝ Unit ℂ) (hdot : Option (Int × Modes)) (hbad : dt ≠ Weights.h ∨ ∃ ty d, hdot = some (ty, d) ∧ ty ≠ Weights.hdot) :
    angularMomentumFlux interp dt spin dot h hdot = .error .valueError := by
  unfold angularMomentumFlux
  by_cases h1 : dt ≠ Weights.h
  · rw [if_pos h1]; rfl
  · rw [if_neg h1]
    rcases hbad with h2 | ⟨ty, d, rfl, h2⟩
    · exact absurd h2 h1
    · simp only [givenHdot]
      rw [if_pos h2]; rfl

/-- C55: modes that rotate rigidly with angular velocity `Ω` radiate `Ω · dJ/dt = dE/dt`. -/
theorem rigid_rotation (a b : Int) (f fdot : Fn) (Ω : Fin 3 → ℝ) (h : ∀ ell m, fdot ell m = -Complex.I * vL Ω f ell m) :
    ∑ c, Ω c * ((inner a b fdot (L c f)).im / (16 * Real.pi)) =
      (∑ l ∈ Icc a b, ∑ m ∈ Icc (-l) l, Complex.normSq (fdot l m)) / (16 * Real.pi) := by
  have e1 : ∑ c, Ω c * ((inner a b fdot (L c f)).im / (16 * Real.pi)) = (inner a b fdot (vL Ω f)).im / (16 * Real.pi) := by
    unfold vL
    rw [Verif.Props.ModeCalc.inner_sum, Complex.im_sum, sum_div]
    apply sum_congr rfl; intro c _
    rw [Complex.im_ofReal_mul]; ring
  rw [e1]
  congr 1
  have e2 : inner a b fdot (vL Ω f) = Complex.I * inner a b fdot fdot := by
    rw [← inner_smul]
    congr 1; funext l m
    rw [h l m, ← mul_assoc, mul_neg, Complex.I_mul_I]; ring
  rw [e2, Complex.I_mul_im]
  unfold Verif.Spec.AngMom.inner
  rw [Complex.re_sum]
  apply sum_congr rfl; intro l _
  rw [Complex.re_sum]
  apply sum_congr rfl; intro m _
  rw [mul_comm, Complex.mul_conj, Complex.ofReal_re]

/-- Non-vacuity: the `(2,2)` mode rotating about `z` with frequency 1. -/
example : ∀ ell m, (fun l k => if l = 2 ∧ k = 2 then -2 * Complex.I else 0 : Fn) ell m =
    -Complex.I * vL ![0, 0, 1] (fun l k => if l = 2 ∧ k = 2 then 1 else 0) ell m := by
  intro ell m
  simp [vL, Fin.sum_univ_three, L]
  split
  · rename_i h; rw [h.2]; push_cast; ring
  · rfl

/-- Non-vacuity: a strain with the example modes and a derivative given explicitly. -/
example (interp : WM ℝ Unit ℂ → List ℝ → WM ℝ Unit ℂ) (dot : WM ℝ Unit ℂ → WM ℝ Unit ℂ) :
    ∃ J, angularMomentumFlux interp Weights.h (-2) dot sample (some (Weights.hdot, ⟨-2, sample⟩)) = .ok J ∧ J.length = 2 :=
  ⟨_, angular_momentum_flux interp (-2) dot sample _ ⟨-2, sample⟩ (Or.inr rfl) rfl sample_valid (by decide) sample_valid (by decide)
    rfl rfl rfl, rfl⟩

end Verif.Props.Flux
