import Verif.Lemmas.FiniteRadius
import Verif.Props.Intersection

/-!
# C82, C83: reading of finite-radius data
-/

namespace Verif.Props.FiniteRadius
open Verif Verif.FiniteRadius Verif.Spec.FiniteRadius

theorem retarded_congr (E : ℝ) (T T' N N' R R' : Nat → ℝ) (k : Nat) (h : ∀ i ≤ k, T i = T' i ∧ N i = N' i ∧ R i = R' i) :
    retarded E T N R k = retarded E T' N' R' k := by
  unfold retarded
  rw [(h 0 (by omega)).1, (h k (by omega)).2.2]
  congr 2
  apply Finset.sum_congr rfl
  intro i hi
  rw [Finset.mem_range] at hi
  rw [(h i (by omega)).1, (h (i + 1) (by omega)).1, (h i (by omega)).2.1, (h (i + 1) (by omega)).2.1, (h i (by omega)).2.2, (h (i + 1) (by omega)).2.2]

theorem getD_of_pick {l r : List ℝ} {I : List Nat} (hr : ∀ (j i : Nat), I[j]? = some i → r[j]? = l[i]?) (j : Nat) (hj : j < I.length) :
    r.getD j 0 = at_ l I j := by
  have := hr j I[j] (List.getElem?_eq_getElem hj)
  simp [at_, List.getD_eq_getElem?_getD, this, List.getElem?_eq_getElem hj]

/-- What `process` returns for indices that are in range. -/
theorem process_spec (W : Wave) (a : Aux) (M : ℝ) (I : List Nat) (hI : I ≠ []) (h1 : ∀ i ∈ I, i < a.times.length) (h2 : ∀ i ∈ I, i < a.lapse.length) (h3 : ∀ i ∈ I, i < a.areal.length)
    (h4 : ∀ i ∈ I, i < W.data.length) (h5 : W.frame.length ≤ 1 ∨ ∀ i ∈ I, i < W.frame.length) (r m : Int) (hs : Props.Weights.Supported W.dataType) (hk : Props.Weights.Known W.dataType r m) :
    ∃ W' Rs, process W a M I = .ok (W', Rs) ∧ W'.dataType = W.dataType ∧ W'.mScaled = true ∧ W'.t.length = I.length ∧ W'.data.length = I.length ∧ Rs.length = I.length ∧
      (W.frame.length ≤ 1 → W'.frame = W.frame) ∧
      ∀ (j i : Nat), I[j]? = some i →
        W'.t[j]? = some (retarded a.energy (at_ a.times I) (at_ a.lapse I) (at_ a.areal I) j / M) ∧
        Rs[j]? = some (a.areal.getD i 0 / M) ∧
        (1 < W.frame.length → W'.frame[j]? = W.frame[i]?) ∧
        W'.data[j]? = (W.data[i]?).map fun row => row.map fun c => c * (((a.areal.getD i 0 / a.coord) ^ r * M ^ (m - r) : ℝ) : ℂ) := by
  obtain ⟨T, eT, lT, gT⟩ := pick_ok a.times I h1
  obtain ⟨R, eR, lR, gR⟩ := pick_ok a.areal I h3
  obtain ⟨N, eN, lN, gN⟩ := pick_ok a.lapse I h2
  obtain ⟨D, eD, lD, gD⟩ := pick_ok W.data I h4
  have hT0 : T ≠ [] := by
    intro h; rw [h] at lT; exact hI (List.eq_nil_of_length_eq_zero lT.symm)
  obtain ⟨t, et, lt, gt⟩ := retime_spec a.energy T N R (by omega) (by omega) hT0
  obtain ⟨r', m', hk', es⟩ := Props.Weights.finite_radius_scale_spec M W.dataType hs
  have er : r' = r := by have := hk'.1.symm.trans hk.1; injection this
  have em : m' = m := by have := hk'.2.symm.trans hk.2; injection this
  subst er; subst em
  have hF : ∃ F, pickFrame W.frame I = Except.ok F ∧ (W.frame.length ≤ 1 → F = W.frame) ∧
      (1 < W.frame.length → ∀ (j i : Nat), I[j]? = some i → F[j]? = W.frame[i]?) := by
    by_cases c : W.frame.length > 1
    · rcases h5 with h5 | h5
      · omega
      · obtain ⟨F, eF, -, gF⟩ := pick_ok W.frame I h5
        exact ⟨F, by rw [pickFrame, if_pos c, eF], fun h => by omega, fun _ => gF⟩
    · exact ⟨W.frame, by rw [pickFrame, if_neg c], fun _ => rfl, fun h => by omega⟩
  obtain ⟨F, eF, F1, F2⟩ := hF
  have e : process W a M I = .ok ({ W with t := t.map fun x => x / M,
                                           data := List.zipWith (fun r row => row.map fun c => c * (((r / a.coord) ^ r' * M ^ (m' - r') : ℝ) : ℂ)) R D,
                                           frame := F, mScaled := true }, R.map fun r => r / M) := by
    unfold process
    simp only [eT, eR, eN, et, es, eD, eF, ok_bind]
    rfl
  refine ⟨_, _, e, ?_⟩
  · refine ⟨rfl, rfl, by simp [lt, lT], by simp [lR, lD], by simp [lR], F1, ?_⟩
    intro j i hj
    have hjI : j < I.length := (List.getElem?_eq_some_iff.mp hj).1
    have hi : i ∈ I := List.mem_of_getElem? hj
    have hRj : R[j]? = some (a.areal.getD i 0) := by
      rw [gR j i hj, List.getD_eq_getElem?_getD, List.getElem?_eq_getElem (h3 i hi)]; rfl
    refine ⟨?_, ?_, fun c => F2 c j i hj, ?_⟩
    · show (t.map _)[j]? = _
      rw [List.getElem?_map, gt j (by omega)]
      simp only [Option.map_some]
      rw [retarded_congr]
      intro i hi
      exact ⟨getD_of_pick gT i (by omega), getD_of_pick gN i (by omega), getD_of_pick gR i (by omega)⟩
    · show (R.map _)[j]? = _
      rw [List.getElem?_map, hRj]; rfl
    · show (List.zipWith _ R D)[j]? = _
      rw [List.getElem?_zipWith, hRj, gD j i hj]
      cases W.data[i]? <;> rfl

/-- C82.  Reading returns the samples that are more than 0.001 before every later one, at the retarded times in units of the mass, with the areal radii in units of the mass, and with the data multiplied
by the power of the radius and of the mass of their type. -/
theorem read_spec (W : Wave) (a : Aux) (M : ℝ) (n : Nat) (hn : 0 < n) (h1 : a.times.length = n) (h2 : a.lapse.length = n) (h3 : a.areal.length = n) (h4 : W.data.length = n)
    (h5 : W.frame.length ≤ 1 ∨ W.frame.length = n) (r m : Int) (hs : Props.Weights.Supported W.dataType) (hk : Props.Weights.Known W.dataType r m)
    (hfirst : ∀ k, 0 < k → k < n → a.times.getD 0 0 + 1 / 1000 < a.times.getD k 0) (fuel : Nat) (hf : 2 * n ≤ fuel) :
    ∃ I W' Rs, readWave fuel W a M = some (.ok (W', Rs)) ∧ Kept (fun k => a.times.getD k 0) (1 / 1000) n I ∧ 0 ∈ I ∧ n - 1 ∈ I ∧ W'.dataType = W.dataType ∧ W'.mScaled = true ∧
      W'.t.length = I.length ∧ W'.data.length = I.length ∧ Rs.length = I.length ∧ (W.frame.length ≤ 1 → W'.frame = W.frame) ∧
      ∀ (j i : Nat), I[j]? = some i →
        W'.t[j]? = some (retarded a.energy (at_ a.times I) (at_ a.lapse I) (at_ a.areal I) j / M) ∧
        Rs[j]? = some (a.areal.getD i 0 / M) ∧
        (1 < W.frame.length → W'.frame[j]? = W.frame[i]?) ∧
        W'.data[j]? = (W.data[i]?).map fun row => row.map fun c => c * (((a.areal.getD i 0 / a.coord) ^ r * M ^ (m - r) : ℝ) : ℂ) := by
  obtain ⟨I, eI, p1, p2, -, p3, p4⟩ := Props.ExMonotonic.ex_monotonic_indices_partial (fun k => a.times.getD k 0) (1 / 1000 : ℝ) (by norm_num) n hn hfirst fuel hf
  have hI : I ≠ [] := by rintro rfl; simp at p3
  have hlt : ∀ i ∈ I, i < n := fun i hi => ((p2 i).mp hi).1
  obtain ⟨W', Rs, e, h⟩ := process_spec W a M I hI (by rw [h1]; exact hlt) (by rw [h2]; exact hlt) (by rw [h3]; exact hlt) (by rw [h4]; exact hlt)
    (h5.imp id fun e => by rw [e]; exact hlt) r m hs hk
  refine ⟨I, W', Rs, ?_, ⟨p1, p2⟩, p3, p4, h⟩
  unfold readWave
  rw [h1, eI, Option.map_some, e]

/-- C82.  In particular, for a field `ψ` of mass dimension `-m` whose stored modes are `C^r ψ` in code units, with the coordinate radius `C` of the sphere, the result is the dimensionless `(R/M)^r M^m ψ` with
the areal radius `R`. -/
theorem dimensionless (ψ : List ℂ) (C R M : ℝ) (hC : C ≠ 0) (hM : M ≠ 0) (r m : Int) :
    (ψ.map fun c => ((C ^ r : ℝ) : ℂ) * c).map (fun c => c * (((R / C) ^ r * M ^ (m - r) : ℝ) : ℂ)) = ψ.map fun c => (((R / M) ^ r * M ^ m : ℝ) : ℂ) * c := by
  rw [List.map_map]
  apply List.map_congr_left
  intro c _
  have h : C ^ r * ((R / C) ^ r * M ^ (m - r)) = (R / M) ^ r * M ^ m := by
    rw [div_zpow, div_zpow, zpow_sub₀ hM]
    have := zpow_ne_zero r hC
    field_simp
  have h' := congrArg (fun x : ℝ => (x : ℂ)) h
  simp only [Function.comp_apply]
  push_cast at h' ⊢
  rw [mul_comm _ c, mul_assoc, h', mul_comm]

/-- C82.  For static observers at a fixed radius of Schwarzschild the retarded time is the coordinate time minus the tortoise coordinate. -/
theorem retarded_schwarzschild (E R₀ : ℝ) (hE : 0 < E) (hR : 2 * E < R₀) (T N R : Nat → ℝ) (k : Nat) (hN : ∀ i ≤ k, N i = Real.sqrt (1 - 2 * E / R₀)) (hRc : ∀ i ≤ k, R i = R₀) :
    retarded E T N R k = T k - rstar E R₀ := by
  have hpos : 0 < 1 - 2 * E / R₀ := by
    rw [sub_pos, div_lt_one (by linarith)]; exact hR
  have hc : ∀ i ≤ k, clock E (N i) (R i) = 1 := by
    intro i hi
    rw [hN i hi, hRc i hi]
    exact div_self (Real.sqrt_ne_zero'.mpr hpos)
  unfold retarded
  rw [hRc k le_rfl, Finset.sum_congr rfl (g := fun i => T (i + 1) - T i), Finset.sum_range_sub]
  · ring
  · intro i hi
    rw [Finset.mem_range] at hi
    rw [hc i (by omega), hc (i + 1) (by omega)]
    ring

/-- C82.  The step from one retarded time to the next. -/
theorem retarded_step (E : ℝ) (T N R : Nat → ℝ) (k : Nat) :
    retarded E T N R (k + 1) - retarded E T N R k =
      (T (k + 1) - T k) * (clock E (N k) (R k) + clock E (N (k + 1)) (R (k + 1))) / 2 - (rstar E (R (k + 1)) - rstar E (R k)) := by
  unfold retarded
  rw [Finset.sum_range_succ]
  ring

/-- C82.  The times that are returned increase strictly, if the lapse is positive and the sphere, outside its Schwarzschild radius, does not grow. -/
theorem times_increasing (W : Wave) (a : Aux) (M : ℝ) (hM : 0 < M) (n : Nat) (hn : 0 < n) (h1 : a.times.length = n) (h2 : a.lapse.length = n) (h3 : a.areal.length = n) (h4 : W.data.length = n)
    (h5 : W.frame.length ≤ 1 ∨ W.frame.length = n) (hs : Props.Weights.Supported W.dataType)
    (hfirst : ∀ k, 0 < k → k < n → a.times.getD 0 0 + 1 / 1000 < a.times.getD k 0) (hE : 0 < a.energy) (hR : ∀ k < n, 2 * a.energy < a.areal.getD k 0)
    (hanti : ∀ i j, i ≤ j → j < n → a.areal.getD j 0 ≤ a.areal.getD i 0) (hN : ∀ k < n, 0 < a.lapse.getD k 0) :
    ∃ W' Rs, readWave (2 * n) W a M = some (.ok (W', Rs)) ∧ W'.t ≠ [] ∧ W'.t.Pairwise (· < ·) := by
  obtain ⟨r, m, hk, -⟩ := Props.Weights.finite_radius_scale_spec M W.dataType hs
  obtain ⟨I, W', Rs, e, ⟨k1, k2⟩, k3, -, -, -, lt, -, -, -, h⟩ := read_spec W a M n hn h1 h2 h3 h4 h5 r m hs hk hfirst (2 * n) le_rfl
  have hlt : ∀ j, j < I.length → I.getD j 0 < n := by
    intro j hj
    have := ((k2 I[j]).mp (List.getElem_mem hj)).1
    simpa [List.getD_eq_getElem?_getD, List.getElem?_eq_getElem hj] using this
  refine ⟨W', Rs, e, ?_, ?_⟩
  · intro c
    rw [c] at lt
    have : I = [] := List.eq_nil_of_length_eq_zero lt.symm
    rw [this] at k3; simp at k3
  · have step : ∀ j, j + 1 < I.length → retarded a.energy (at_ a.times I) (at_ a.lapse I) (at_ a.areal I) j < retarded a.energy (at_ a.times I) (at_ a.lapse I) (at_ a.areal I) (j + 1) := by
      intro j hj
      rw [← sub_pos, retarded_step]
      have hI : I.getD j 0 < I.getD (j + 1) 0 := by
        have := List.pairwise_iff_getElem.mp k1 j (j + 1) (by omega) hj (by omega)
        simpa [List.getD_eq_getElem?_getD, List.getElem?_eq_getElem hj, List.getElem?_eq_getElem (show j < I.length by omega)] using this
      have hT : at_ a.times I j < at_ a.times I (j + 1) := by
        have hm : I.getD j 0 ∈ I := by
          simp [List.getD_eq_getElem?_getD, List.getElem?_eq_getElem (show j < I.length by omega)]
        have := ((k2 _).mp hm).2 _ hI (hlt (j + 1) hj)
        unfold at_
        linarith
      have pos : ∀ i, i < I.length → 0 < clock a.energy (at_ a.lapse I i) (at_ a.areal I i) := by
        intro i hi
        unfold clock at_
        refine div_pos (hN _ (hlt i hi)) (Real.sqrt_pos.mpr ?_)
        have := hR _ (hlt i hi)
        rw [sub_pos, div_lt_one (by linarith)]
        exact this
      have hr : rstar a.energy (at_ a.areal I (j + 1)) ≤ rstar a.energy (at_ a.areal I j) := by
        have a1 := hanti _ _ hI.le (hlt (j + 1) hj)
        have a2 := hR _ (hlt (j + 1) hj)
        unfold rstar at_
        refine add_le_add a1 (mul_le_mul_of_nonneg_left (Real.log_le_log ?_ ?_) (by linarith))
        · rw [sub_pos, one_lt_div (by linarith)]; exact a2
        · have := div_le_div_of_nonneg_right a1 (show (0 : ℝ) ≤ 2 * a.energy by linarith)
          linarith
      have := mul_pos (sub_pos.mpr hT) (add_pos (pos j (by omega)) (pos (j + 1) hj))
      linarith
    have mono : ∀ i j, i < j → j < I.length → retarded a.energy (at_ a.times I) (at_ a.lapse I) (at_ a.areal I) i < retarded a.energy (at_ a.times I) (at_ a.lapse I) (at_ a.areal I) j := by
      intro i j hij
      induction j with
      | zero => omega
      | succ j ih =>
        intro hj
        rcases Nat.lt_succ_iff_lt_or_eq.mp hij with c | c
        · exact (ih c (by omega)).trans (step j hj)
        · subst c; exact step i hj
    rw [List.pairwise_iff_getElem]
    intro i j hi hj hij
    have gi := (h i _ (List.getElem?_eq_getElem (by omega))).1
    have gj := (h j _ (List.getElem?_eq_getElem (by omega))).1
    rw [List.getElem?_eq_getElem hi] at gi
    rw [List.getElem?_eq_getElem hj] at gj
    injection gi with gi
    injection gj with gj
    rw [gi, gj]
    exact div_lt_div_of_pos_right (mono i j hij (by omega)) hM

/-! ## Units -/

/-- The quantities in units of length that are `1/s` times as large. -/
def scaleAux (s : ℝ) (a : Aux) : Aux :=
  { times := a.times.map fun x => s * x, lapse := a.lapse, areal := a.areal.map fun x => s * x, coord := s * a.coord, energy := s * a.energy }

/-- Data of the dimension length to the power `d` in these units. -/
noncomputable def scaleWave (s : ℝ) (d : Int) (W : Wave) : Wave := { W with data := W.data.map fun row => row.map fun c => ((s ^ d : ℝ) : ℂ) * c }

theorem pick_map {α β : Type} (f : α → β) (l : List α) (I : List Nat) : pick (l.map f) I = (pick l I).map fun r => r.map f := by
  unfold pick
  by_cases c : ∀ i ∈ I, i < l.length
  · rw [if_pos c, if_pos (by simpa using c)]
    simp only [Except.map, List.map_filterMap]
    congr 2
    funext i
    simp
  · rw [if_neg c, if_neg (by simpa using c)]
    rfl

theorem cumTrap_scale (s : ℝ) : ∀ (y x : List ℝ) (acc : ℝ), cumTrap (s * acc) y (x.map fun t => s * t) = (cumTrap acc y x).map fun t => s * t
  | [], x, acc => by simp [cumTrap]
  | [y0], x, acc => by simp [cumTrap]
  | y0 :: y1 :: ys, x, acc => by
    match x with
    | [] => simp [cumTrap]
    | [x0] => simp [cumTrap]
    | x0 :: x1 :: xs =>
      have e : s * acc + (s * x1 - s * x0) * (y0 + y1) / 2 = s * (acc + (x1 - x0) * (y0 + y1) / 2) := by ring
      have := cumTrap_scale s (y1 :: ys) (x1 :: xs) (acc + (x1 - x0) * (y0 + y1) / 2)
      simp only [List.map_cons] at this
      simp only [List.map_cons, cumTrap, e, this]

theorem rate_scale {s : ℝ} (hs : s ≠ 0) (E N R : ℝ) : rate (s * E) N (s * R) = rate E N R := by
  unfold rate
  rw [show -2 * (s * E) / (s * R) = -2 * E / R by rw [show -2 * (s * E) = s * (-2 * E) by ring, mul_div_mul_left _ _ hs]]

theorem tortoise_scale {s : ℝ} (hs : s ≠ 0) (E R : ℝ) : tortoise (s * E) (s * R) = s * tortoise E R := by
  unfold tortoise
  rw [show s * R / (2 * (s * E)) = R / (2 * E) by rw [show 2 * (s * E) = s * (2 * E) by ring, mul_div_mul_left _ _ hs]]
  ring

theorem retime_scale {s : ℝ} (hs : s ≠ 0) (E : ℝ) (T N R : List ℝ) :
    retime (s * E) (T.map fun x => s * x) N (R.map fun x => s * x) = (retime E T N R).map fun t => t.map fun x => s * x := by
  cases T with
  | nil => rfl
  | cons t0 ts =>
    simp only [retime, List.map_cons, Except.map]
    have h1 : List.zipWith (rate (s * E)) N (R.map fun x => s * x) = List.zipWith (rate E) N R := by
      rw [List.zipWith_map_right]
      simp only [rate_scale hs]
    have h2 := cumTrap_scale s (List.zipWith (rate E) N R) (t0 :: ts) 0
    rw [mul_zero, List.map_cons] at h2
    rw [h1, h2, List.map_map, List.map_zipWith, List.zipWith_map_right]
    congr 1
    have h3 : (s * t0 :: List.map ((fun x => x + s * t0) ∘ fun t => s * t) (cumTrap 0 (List.zipWith (rate E) N R) (t0 :: ts))) =
        (t0 :: List.map (fun x => x + t0) (cumTrap 0 (List.zipWith (rate E) N R) (t0 :: ts))).map fun x => s * x := by
      rw [List.map_cons, List.map_map]
      congr 1
      apply List.map_congr_left
      intro x _
      simp only [Function.comp_apply]
      ring
    rw [h3, List.zipWith_map_left]
    congr 1
    funext x r
    rw [tortoise_scale hs]
    ring

/-- C82.  The result does not depend on the unit of length of the simulation. -/
theorem units_irrelevant (s : ℝ) (hs : s ≠ 0) (W : Wave) (a : Aux) (M : ℝ) (I : List Nat) (r m : Int) (hsup : Props.Weights.Supported W.dataType) (hk : Props.Weights.Known W.dataType r m) :
    process (scaleWave s (r - m) W) (scaleAux s a) (s * M) I = process W a M I := by
  obtain ⟨r', m', hk', es⟩ := Props.Weights.finite_radius_scale_spec M W.dataType hsup
  obtain ⟨r'', m'', hk'', es'⟩ := Props.Weights.finite_radius_scale_spec (s * M) W.dataType hsup
  have er : r' = r := by have := hk'.1.symm.trans hk.1; injection this
  have em : m' = m := by have := hk'.2.symm.trans hk.2; injection this
  have er' : r'' = r := by have := hk''.1.symm.trans hk.1; injection this
  have em' : m'' = m := by have := hk''.2.symm.trans hk.2; injection this
  subst er; subst em; subst er'; subst em'
  have hdt : (scaleWave s (r'' - m'') W).dataType = W.dataType := rfl
  have hfr : (scaleWave s (r'' - m'') W).frame = W.frame := rfl
  unfold process
  rw [hdt, hfr, es, es']
  simp only [scaleAux, pick_map]
  cases hT : pick a.times I with
  | error e => rfl
  | ok T =>
  cases hR : pick a.areal I with
  | error e => rfl
  | ok R =>
  cases hN : pick a.lapse I with
  | error e => rfl
  | ok N =>
  simp only [Except.map, ok_bind, retime_scale hs]
  cases ht : retime a.energy T N R with
  | error e => rfl
  | ok t =>
  simp only [scaleWave, pick_map, ok_bind, Except.map]
  cases hD : pick W.data I with
  | error e => rfl
  | ok D =>
  cases hF : pickFrame W.frame I with
  | error e => rfl
  | ok F =>
  simp only [ok_bind, List.map_map, List.zipWith_map]
  have e1 : ((fun x => x / (s * M)) ∘ fun x => s * x) = fun x => x / M := by
    funext x; simp only [Function.comp_apply]; rw [mul_div_mul_left _ _ hs]
  have e2 : ∀ (x : ℝ) (row : List ℂ), row.map ((fun c => c * (((s * x / (s * a.coord)) ^ r'' * (s * M) ^ (m'' - r'') : ℝ) : ℂ)) ∘ fun c => ((s ^ (r'' - m'') : ℝ) : ℂ) * c) =
      row.map fun c => c * (((x / a.coord) ^ r'' * M ^ (m'' - r'') : ℝ) : ℂ) := by
    intro x row
    apply List.map_congr_left
    intro c _
    simp only [Function.comp_apply]
    rw [mul_div_mul_left _ _ hs, mul_zpow, mul_comm ((s ^ (r'' - m'') : ℝ) : ℂ) c, mul_assoc, ← Complex.ofReal_mul]
    congr 2
    have : s ^ (r'' - m'') * s ^ (m'' - r'') = 1 := by rw [← zpow_add₀ hs]; simp
    calc s ^ (r'' - m'') * ((x / a.coord) ^ r'' * (s ^ (m'' - r'') * M ^ (m'' - r''))) = (s ^ (r'' - m'') * s ^ (m'' - r'')) * ((x / a.coord) ^ r'' * M ^ (m'' - r'')) := by ring
      _ = _ := by rw [this, one_mul]
  simp only [e1, e2]

/-! ## A case that meets the hypotheses -/

/-- Four samples, of which the second is superseded by the third. -/
def sampleAux : Aux := { times := [0, 10, 5, 20], lapse := [1, 1, 1, 1], areal := [100, 100, 100, 100], coord := 99, energy := 1 }

def sampleWave : Wave := { dataType := 7, t := [], data := [[1], [2], [3], [4]], frame := [], mScaled := false }

theorem sample_supported : Props.Weights.Supported sampleWave.dataType := Or.inr (Or.inl rfl)

theorem sample_first : ∀ k, 0 < k → k < 4 → sampleAux.times.getD 0 0 + 1 / 1000 < sampleAux.times.getD k 0 := by
  intro k h0 hk
  have : k = 1 ∨ k = 2 ∨ k = 3 := by omega
  rcases this with rfl | rfl | rfl <;> norm_num [sampleAux]

example : ∃ W' Rs, readWave (2 * 4) sampleWave sampleAux 1 = some (.ok (W', Rs)) ∧ W'.t ≠ [] ∧ W'.t.Pairwise (· < ·) := by
  refine times_increasing sampleWave sampleAux 1 one_pos 4 (by norm_num) rfl rfl rfl rfl (Or.inl (by simp [sampleWave])) sample_supported sample_first (by norm_num [sampleAux]) ?_ ?_ ?_
  · intro k hk
    have : k = 0 ∨ k = 1 ∨ k = 2 ∨ k = 3 := by omega
    rcases this with rfl | rfl | rfl | rfl <;> norm_num [sampleAux]
  · intro i j hij hj
    have hi : i = 0 ∨ i = 1 ∨ i = 2 ∨ i = 3 := by omega
    have hj : j = 0 ∨ j = 1 ∨ j = 2 ∨ j = 3 := by omega
    rcases hi with rfl | rfl | rfl | rfl <;> rcases hj with rfl | rfl | rfl | rfl <;> norm_num [sampleAux]
  · intro k hk
    have : k = 0 ∨ k = 1 ∨ k = 2 ∨ k = 3 := by omega
    rcases this with rfl | rfl | rfl | rfl <;> norm_num [sampleAux]

end Verif.Props.FiniteRadius
