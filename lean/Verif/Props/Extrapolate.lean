import Verif.Model.Extrapolate
import Verif.Lemmas.LeastSquares

/-!
# C28: extrapolation
-/

namespace Verif.Props.Extrapolate
open Verif Verif.Extrapolate Verif.Spec.Extrapolate

variable {I : Type}

/-- A consistent set of input: as many series of radii as waveforms, all of the same shape. -/
structure Consistent (Ws : List (Wave I)) (radii : List (List ℝ)) (nTimes nModes : Nat) : Prop where
  nonempty : Ws ≠ []
  count : radii.length = Ws.length
  times : ∀ w ∈ Ws, w.nTimes = nTimes
  modes : ∀ w ∈ Ws, w.nModes = nModes
  lengths : ∀ r ∈ radii, r.length = nTimes

/-- The order can be extrapolated with that many waveforms. -/
def Possible (n : Nat) (N : Int) : Prop := -(n : Int) ≤ N ∧ N < n

/-- The pairs of `1/r` and datum for one time and mode. -/
noncomputable def samples (Ws : List (Wave I)) (radii : List (List ℝ)) (it im : Nat) : List (ℝ × ℂ) :=
  (radii.map fun r => 1 / r.getD it 0).zip (Ws.map fun w => w.data it im)

theorem checkRest_ok (nTimes nModes : Nat) (ws : List (Wave I)) (rs : List (List ℝ)) (h1 : ∀ w ∈ ws, w.nTimes = nTimes)
    (h2 : ∀ w ∈ ws, w.nModes = nModes) (h3 : ∀ r ∈ rs, r.length = nTimes) : checkRest nTimes nModes ws rs = .ok () := by
  induction ws generalizing rs with
  | nil => cases rs <;> rfl
  | cons w ws ih =>
    cases rs with
    | nil => rfl
    | cons r rs =>
      have hone : checkOne nTimes nModes w r = .ok () := by
        unfold checkOne
        rw [if_neg (not_not.mpr (h1 w (by simp))), if_neg (not_not.mpr (h2 w (by simp))), if_neg (not_not.mpr (h3 r (by simp)))]
      rw [checkRest, hone]
      exact ih rs (fun x hx => h1 x (List.mem_cons_of_mem _ hx)) (fun x hx => h2 x (List.mem_cons_of_mem _ hx)) (fun x hx => h3 x (List.mem_cons_of_mem _ hx))

theorem mapM_ok {α β : Type _} (f : α → Py β) (g : α → β) (l : List α) (h : ∀ x ∈ l, f x = .ok (g x)) : l.mapM f = .ok (l.map g) := by
  induction l with
  | nil => rfl
  | cons x xs ih =>
    rw [List.mapM_cons, h x (by simp), ok_bind, ih (fun y hy => h y (List.mem_cons_of_mem _ hy)), ok_bind]; rfl

theorem mapM_error {α β : Type _} (f : α → Py β) (e : PyErr) (l : List α) (hl : l ≠ []) (h : ∀ x ∈ l, f x = .error e) : l.mapM f = .error e := by
  cases l with
  | nil => exact absurd rfl hl
  | cons x xs => rw [List.mapM_cons, h x (by simp)]; rfl

theorem oneOverRadii_ok (radii : List (List ℝ)) (nTimes it : Nat) (h : ∀ r ∈ radii, r.length = nTimes) (hit : it < nTimes) :
    oneOverRadii radii it = .ok (radii.map fun r => 1 / r.getD it 0) := by
  refine mapM_ok _ _ _ fun r hr => ?_
  have hlt : it < r.length := by rw [h r hr]; exact hit
  rw [pyGet_nat (List.getElem?_eq_getElem hlt), ok_bind]
  simp [List.getD, hlt]
  rfl

theorem timeLoop_ok (nTimes nModes : Nat) (radii : List (List ℝ)) (h : ∀ r ∈ radii, r.length = nTimes) :
    timeLoop nTimes nModes radii false false = .ok ((List.range nTimes).map fun it => radii.map fun r => 1 / r.getD it 0) := by
  refine mapM_ok _ _ _ fun it hit => ?_
  have hlt := List.mem_range.mp hit
  simp only [Bool.false_eq_true, if_false]
  rw [oneOverRadii_ok radii nTimes it h hlt, ok_bind]; rfl

/-- The branches before the loops, for consistent input. -/
theorem extrapolate_unfold (polyfit : Fit) (Ws : List (Wave I)) (radii : List (List ℝ)) (nTimes nModes : Nat) (hc : Consistent Ws radii nTimes nModes)
    (orders : List Int) (ho : orders ≠ []) (hp : ∀ N ∈ orders, Possible Ws.length N) (omegas : List ℝ) (hom : omegas.length = 0 ∨ omegas.length = nTimes)
    (noise : Bool) :
    ∃ last maxN, Ws.getLast? = some last ∧ (maxN < 0 ↔ ∀ N ∈ orders, N < 0) ∧ extrapolate polyfit Ws radii orders omegas noise = (do
      let xs ← abscissas maxN nTimes nModes radii (decide (omegas.length ≠ 0)) (last.psi01 && noise)
      orders.mapM (result polyfit Ws last nTimes nModes xs)) := by
  obtain ⟨w0, ws, rfl⟩ := List.exists_cons_of_ne_nil hc.nonempty
  obtain ⟨last, hlast⟩ : ∃ last, (w0 :: ws).getLast? = some last := ⟨_, List.getLast?_eq_some_getLast (by simp)⟩
  obtain ⟨maxN, hmax⟩ : ∃ m, orders.max? = some m := Option.isSome_iff_exists.mp (by rw [List.isSome_max?_iff]; exact ho)
  obtain ⟨minN, hmin⟩ : ∃ m, orders.min? = some m := Option.isSome_iff_exists.mp (by rw [List.isSome_min?_iff]; exact ho)
  have hmaxm := (List.max?_eq_some_iff.mp hmax)
  have hminm := (List.min?_eq_some_iff.mp hmin)
  have h1 := hp maxN hmaxm.1
  have h2 := hp minN hminm.1
  have hmm : minN ≤ maxN := hminm.2 maxN hmaxm.1
  unfold Possible at h1 h2
  have hneg : (maxN < 0) ↔ ∀ N ∈ orders, N < 0 := by
    constructor
    · intro h N hN; have := hmaxm.2 N hN; omega
    · intro h; exact h maxN hmaxm.1
  refine ⟨last, maxN, hlast, hneg, ?_⟩
  unfold extrapolate
  rw [hmax, hmin, hlast]
  simp only [List.head?_cons, List.tail_cons]
  have t0 : w0.nTimes = nTimes := hc.times w0 (by simp)
  have m0 : w0.nModes = nModes := hc.modes w0 (by simp)
  rw [if_neg (by omega), if_neg (by omega), if_neg (not_not.mpr hc.count), t0, m0]
  have hom' : ¬ (decide (omegas.length ≠ 0) = true ∧ omegas.length ≠ nTimes) := by
    rintro ⟨a, b⟩
    rw [decide_eq_true_eq] at a
    rcases hom with h | h
    · exact a h
    · exact b h
  rw [if_neg hom', checkRest_ok nTimes nModes ws radii.tail (fun w hw => hc.times w (List.mem_cons_of_mem _ hw))
    (fun w hw => hc.modes w (List.mem_cons_of_mem _ hw)) (fun r hr => hc.lengths r (List.mem_of_mem_tail hr)), ok_bind]

/-- C28: what extrapolation returns.  For a negative order `-k` the `k`-th waveform from the end, for another order `N` the
constant term, for each time and mode, of the fit in `1/r` of degree `N`, with everything else from the last waveform. -/
theorem extrapolate_spec (polyfit : Fit) (Ws : List (Wave I)) (radii : List (List ℝ)) (nTimes nModes : Nat) (hc : Consistent Ws radii nTimes nModes)
    (orders : List Int) (ho : orders ≠ []) (hp : ∀ N ∈ orders, Possible Ws.length N) (noise : Bool)
    (hn : noise = false ∨ ∀ w ∈ Ws, w.psi01 = false) :
    ∃ out, extrapolate polyfit Ws radii orders [] noise = .ok out ∧ out.length = orders.length ∧
      ∀ (i : Nat) (N : Int), orders[i]? = some N →
        (N < 0 → out[i]? = Ws[((Ws.length : Int) + N).toNat]? ∧ (out[i]?).isSome) ∧
        (0 ≤ N → ∃ w last, out[i]? = some w ∧ Ws.getLast? = some last ∧ w.info = last.info ∧ w.nTimes = nTimes ∧ w.nModes = nModes ∧
          ∀ it im, it < nTimes → w.data it im = polyfit (samples Ws radii it im) N.toNat 0) := by
  obtain ⟨last, maxN, hlast, hneg, hex⟩ := extrapolate_unfold polyfit Ws radii nTimes nModes hc orders ho hp [] (Or.inl rfl) noise
  have hexcl : (last.psi01 && noise) = false := by
    rcases hn with rfl | h
    · exact Bool.and_false _
    · rw [h last (List.mem_of_getLast? hlast)]; rfl
  have hall : ∀ xs : List (List ℝ), orders.mapM (result polyfit Ws last nTimes nModes xs) = .ok (orders.map fun N =>
      if N < 0 then Ws.getD ((Ws.length : Int) + N).toNat last else
        ⟨nTimes, nModes, fun it im => polyfit ((xs.getD it []).zip (Ws.map fun w => w.data it im)) N.toNat 0, last.psi01, last.info⟩) := by
    intro xs
    refine mapM_ok _ _ _ fun N hN => ?_
    have hpN := hp N hN
    unfold Possible at hpN
    unfold result
    by_cases h0 : N < 0
    · rw [if_pos h0, if_pos h0]
      obtain ⟨k, hk⟩ : ∃ k : Nat, (Ws.length : Int) + N = k := ⟨((Ws.length : Int) + N).toNat, by omega⟩
      have hlt : k < Ws.length := by omega
      rw [hk, pyGet_nat (List.getElem?_eq_getElem hlt), Int.toNat_natCast]
      simp [List.getD, hlt]
    · rw [if_neg h0, if_neg h0]
  have hout : ∃ xs : List (List ℝ), extrapolate polyfit Ws radii orders [] noise = orders.mapM (result polyfit Ws last nTimes nModes xs) ∧
      ((∃ N ∈ orders, 0 ≤ N) → ∀ it, it < nTimes → xs.getD it [] = radii.map fun r => 1 / r.getD it 0) := by
    rw [hex]
    unfold abscissas
    by_cases hm : maxN < 0
    · rw [if_pos hm, ok_bind]
      refine ⟨[], rfl, fun ⟨N, hN, h0⟩ => ?_⟩
      have := hneg.mp hm N hN; omega
    · rw [if_neg hm, hexcl]
      have : decide (([] : List ℝ).length ≠ 0) = false := rfl
      rw [this, timeLoop_ok nTimes nModes radii hc.lengths, ok_bind]
      refine ⟨_, rfl, fun _ it hit => ?_⟩
      simp [List.getD, hit]
  obtain ⟨xs, hx1, hx2⟩ := hout
  rw [hx1, hall xs]
  refine ⟨_, rfl, by simp, ?_⟩
  intro i N hi
  have hN : N ∈ orders := List.mem_of_getElem? hi
  have hpN := hp N hN
  unfold Possible at hpN
  rw [List.getElem?_map, hi]
  simp only [Option.map_some]
  refine ⟨fun h0 => ?_, fun h0 => ?_⟩
  · have hlt : ((Ws.length : Int) + N).toNat < Ws.length := by omega
    rw [if_pos h0]
    simp [List.getD, hlt]
  · rw [if_neg (by omega)]
    refine ⟨_, last, rfl, hlast, rfl, rfl, rfl, fun it im hit => ?_⟩
    simp only
    rw [hx2 ⟨N, hN, h0⟩ it hit]; rfl

/-! ### The fits -/

/-- C28: a fit of a polynomial returns that polynomial. -/
theorem fit_exact (fit : Fit) (hf : LeastSquares fit) (N : Nat) (s : List (ℝ × ℂ)) (hs : Distinct N s) (c : Fin (N + 1) → ℂ)
    (h : ∀ p ∈ s, p.2 = poly c p.1) : fit s N = c := by
  refine fit_unique s hs _ _ (against_eq_zero s _ (hf s N)) fun d => ?_
  unfold against
  apply List.sum_eq_zero
  intro x hx
  obtain ⟨p, hp, rfl⟩ := List.mem_map.mp hx
  rw [h p hp, sub_self, mul_zero]

theorem against_perm {N : Nat} {s s' : List (ℝ × ℂ)} (h : s.Perm s') (d c : Fin (N + 1) → ℂ) : against s d c = against s' d c :=
  (h.map _).sum_eq

/-- C28: the order of the samples does not matter. -/
theorem fit_perm (fit : Fit) (hf : LeastSquares fit) (N : Nat) (s s' : List (ℝ × ℂ)) (hs : Distinct N s) (h : s.Perm s') : fit s N = fit s' N := by
  refine fit_unique s hs _ _ (against_eq_zero s _ (hf s N)) fun d => ?_
  rw [against_perm h]
  exact against_eq_zero s' _ (hf s' N) d

/-- C28: a fit is linear in the data. -/
theorem fit_linear (fit : Fit) (hf : LeastSquares fit) (N : Nat) (x : List ℝ) (y z : List ℂ) (hy : y.length = x.length) (hz : z.length = x.length)
    (hs : N + 1 ≤ x.toFinset.card) (a b : ℂ) :
    fit (x.zip (List.zipWith (fun u v => a * u + b * v) y z)) N = a • fit (x.zip y) N + b • fit (x.zip z) N := by
  have hfst : ∀ u : List ℂ, u.length = x.length → (x.zip u).map Prod.fst = x := fun u hu => List.map_fst_zip (by omega)
  refine fit_unique _ ?_ _ _ (against_eq_zero _ _ (hf _ N)) fun d => ?_
  · unfold Distinct; rw [hfst _ (by simp; omega)]; exact hs
  · have h1 := against_eq_zero _ _ (hf (x.zip y) N) d
    have h2 := against_eq_zero _ _ (hf (x.zip z) N) d
    generalize fit (x.zip y) N = p at h1
    generalize fit (x.zip z) N = q at h2
    have key : ∀ (x : List ℝ) (y z : List ℂ), y.length = x.length → z.length = x.length →
        against (x.zip (List.zipWith (fun u v => a * u + b * v) y z)) d (a • p + b • q) = a * against (x.zip y) d p + b * against (x.zip z) d q := by
      intro x
      induction x with
      | nil => intro y z _ _; simp [against]
      | cons x0 xs ih =>
        intro y z hy hz
        cases y with
        | nil => simp at hy
        | cons y0 ys =>
          cases z with
          | nil => simp at hz
          | cons z0 zs =>
            have := ih ys zs (by simpa using hy) (by simpa using hz)
            unfold against at this ⊢
            simp only [List.zipWith_cons_cons, List.zip_cons_cons, List.map_cons, List.sum_cons]
            rw [this, poly_add, poly_smul, poly_smul]; ring
    rw [key x y z hy hz, h1, h2]; ring

/-- The number of different radii at a time. -/
noncomputable def radiiAt (radii : List (List ℝ)) (it : Nat) : Finset ℝ := (radii.map fun r => r.getD it 0).toFinset

theorem samples_fst (Ws : List (Wave I)) (radii : List (List ℝ)) (it im : Nat) (hc : radii.length = Ws.length) :
    (samples Ws radii it im).map Prod.fst = radii.map fun r => 1 / r.getD it 0 := by
  unfold samples; exact List.map_fst_zip (by simp [hc])

theorem samples_distinct (Ws : List (Wave I)) (radii : List (List ℝ)) (it im N : Nat) (hc : radii.length = Ws.length)
    (h : N + 1 ≤ (radiiAt radii it).card) : Distinct N (samples Ws radii it im) := by
  classical
  unfold Distinct
  rw [samples_fst Ws radii it im hc]
  have : (radii.map fun r => 1 / r.getD it 0).toFinset = (radiiAt radii it).image (fun x => 1 / x) := by
    ext x; simp [radiiAt]
  rw [this, Finset.card_image_of_injective]
  · exact h
  · intro a b hab
    simp only [one_div] at hab
    exact inv_injective hab

/-- C28, exactness: if at some time a mode is, at every radius, `c₀ + c₁/r + ... + c_N/r^N`, and at least `N + 1` of the radii
differ, extrapolation of order `N` gives `c₀`. -/
theorem extrapolate_exact (polyfit : Fit) (hf : LeastSquares polyfit) (Ws : List (Wave I)) (radii : List (List ℝ)) (nTimes nModes : Nat)
    (hc : Consistent Ws radii nTimes nModes) (orders : List Int) (hp : ∀ N ∈ orders, Possible Ws.length N) (noise : Bool)
    (hn : noise = false ∨ ∀ w ∈ Ws, w.psi01 = false) (i N : Nat) (hi : orders[i]? = some (N : Int)) (it im : Nat) (hit : it < nTimes)
    (hd : N + 1 ≤ (radiiAt radii it).card) (c : Fin (N + 1) → ℂ)
    (hpoly : ∀ (k : Nat) (w : Wave I) (r : List ℝ), Ws[k]? = some w → radii[k]? = some r → w.data it im = ∑ j, c j / (r.getD it 0 : ℂ) ^ (j : Nat)) :
    ∃ out w, extrapolate polyfit Ws radii orders [] noise = .ok out ∧ out[i]? = some w ∧ w.data it im = c 0 := by
  have ho : orders ≠ [] := by rintro rfl; simp at hi
  obtain ⟨out, h1, -, h3⟩ := extrapolate_spec polyfit Ws radii nTimes nModes hc orders ho hp noise hn
  obtain ⟨w, last, hw, -, -, -, -, hdata⟩ := (h3 i N hi).2 (by omega)
  refine ⟨out, w, h1, hw, ?_⟩
  rw [hdata it im hit, Int.toNat_natCast]
  rw [fit_exact polyfit hf N _ (samples_distinct Ws radii it im N hc.count hd) c]
  intro p hp
  obtain ⟨k, hk⟩ := List.mem_iff_getElem?.mp hp
  unfold samples at hk
  rw [List.getElem?_zip_eq_some, List.getElem?_map, List.getElem?_map] at hk
  obtain ⟨hk1, hk2⟩ := hk
  cases hr : radii[k]? with
  | none => rw [hr] at hk1; cases hk1
  | some r =>
    cases hw' : Ws[k]? with
    | none => rw [hw'] at hk2; cases hk2
    | some w' =>
      rw [hr] at hk1; rw [hw'] at hk2
      have e1 : 1 / r.getD it 0 = p.1 := by simpa using hk1
      have e2 : w'.data it im = p.2 := by simpa using hk2
      rw [← e1, ← e2, hpoly k w' r hw' hr]
      unfold poly
      refine Finset.sum_congr rfl fun j _ => ?_
      push_cast
      rw [one_div, inv_pow, div_eq_mul_inv]

/-- C28, order of the radii: permuting waveforms and radii together does not change the extrapolated data. -/
theorem extrapolate_perm (polyfit : Fit) (hf : LeastSquares polyfit) (Ws Ws' : List (Wave I)) (radii radii' : List (List ℝ)) (nTimes nModes : Nat)
    (hc : Consistent Ws radii nTimes nModes) (hc' : Consistent Ws' radii' nTimes nModes) (hperm : (Ws.zip radii).Perm (Ws'.zip radii'))
    (orders : List Int) (hp : ∀ N ∈ orders, Possible Ws.length N) (i N : Nat) (hi : orders[i]? = some (N : Int)) (it im : Nat) (hit : it < nTimes)
    (hd : N + 1 ≤ (radiiAt radii it).card) :
    ∃ out out' w w', extrapolate polyfit Ws radii orders [] false = .ok out ∧ extrapolate polyfit Ws' radii' orders [] false = .ok out' ∧
      out[i]? = some w ∧ out'[i]? = some w' ∧ w.data it im = w'.data it im := by
  have ho : orders ≠ [] := by rintro rfl; simp at hi
  have hlen : Ws'.length = Ws.length := by
    have := hperm.length_eq
    simp only [List.length_zip, hc.count, hc'.count, min_self] at this
    exact this.symm
  obtain ⟨out, h1, -, h3⟩ := extrapolate_spec polyfit Ws radii nTimes nModes hc orders ho hp false (Or.inl rfl)
  obtain ⟨out', h1', -, h3'⟩ := extrapolate_spec polyfit Ws' radii' nTimes nModes hc' orders ho (by rw [hlen]; exact hp) false (Or.inl rfl)
  obtain ⟨w, last, hw, -, -, -, -, hdata⟩ := (h3 i N hi).2 (by omega)
  obtain ⟨w', last', hw', -, -, -, -, hdata'⟩ := (h3' i N hi).2 (by omega)
  refine ⟨out, out', w, w', h1, h1', hw, hw', ?_⟩
  rw [hdata it im hit, hdata' it im hit, Int.toNat_natCast]
  rw [fit_perm polyfit hf N (samples Ws radii it im) (samples Ws' radii' it im) (samples_distinct Ws radii it im N hc.count hd) ?_]
  have hz : ∀ (W : List (Wave I)) (R : List (List ℝ)), samples W R it im = (W.zip R).map fun q => (1 / q.2.getD it 0, q.1.data it im) := by
    intro W
    induction W with
    | nil => intro R; simp [samples]
    | cons a W ih =>
      intro R
      cases R with
      | nil => simp [samples]
      | cons b R =>
        have := ih R
        unfold samples at this ⊢
        simp only [List.map_cons, List.zip_cons_cons, this]
  rw [hz, hz]
  exact hperm.map _

/-- C28, linearity in the data, for waveforms at the same radii. -/
theorem extrapolate_linear (polyfit : Fit) (hf : LeastSquares polyfit) (Ws Vs Us : List (Wave I)) (radii : List (List ℝ)) (nTimes nModes : Nat)
    (hw : Consistent Ws radii nTimes nModes) (hv : Consistent Vs radii nTimes nModes) (hu : Consistent Us radii nTimes nModes) (a b : ℂ)
    (hlin : ∀ (k : Nat) (w v u : Wave I), Ws[k]? = some w → Vs[k]? = some v → Us[k]? = some u → ∀ it im, u.data it im = a * w.data it im + b * v.data it im)
    (orders : List Int) (hp : ∀ N ∈ orders, Possible Ws.length N) (i N : Nat) (hi : orders[i]? = some (N : Int)) (it im : Nat) (hit : it < nTimes)
    (hd : N + 1 ≤ (radiiAt radii it).card) :
    ∃ ow ov ou w v u, extrapolate polyfit Ws radii orders [] false = .ok ow ∧ extrapolate polyfit Vs radii orders [] false = .ok ov ∧
      extrapolate polyfit Us radii orders [] false = .ok ou ∧ ow[i]? = some w ∧ ov[i]? = some v ∧ ou[i]? = some u ∧
      u.data it im = a * w.data it im + b * v.data it im := by
  have ho : orders ≠ [] := by rintro rfl; simp at hi
  have l1 : Vs.length = Ws.length := by rw [← hv.count, hw.count]
  have l2 : Us.length = Ws.length := by rw [← hu.count, hw.count]
  obtain ⟨ow, h1, -, h1'⟩ := extrapolate_spec polyfit Ws radii nTimes nModes hw orders ho hp false (Or.inl rfl)
  obtain ⟨ov, h2, -, h2'⟩ := extrapolate_spec polyfit Vs radii nTimes nModes hv orders ho (by rw [l1]; exact hp) false (Or.inl rfl)
  obtain ⟨ou, h3, -, h3'⟩ := extrapolate_spec polyfit Us radii nTimes nModes hu orders ho (by rw [l2]; exact hp) false (Or.inl rfl)
  obtain ⟨w, _, hw1, -, -, -, -, dw⟩ := (h1' i N hi).2 (by omega)
  obtain ⟨v, _, hv1, -, -, -, -, dv⟩ := (h2' i N hi).2 (by omega)
  obtain ⟨u, _, hu1, -, -, -, -, du⟩ := (h3' i N hi).2 (by omega)
  refine ⟨ow, ov, ou, w, v, u, h1, h2, h3, hw1, hv1, hu1, ?_⟩
  rw [dw it im hit, dv it im hit, du it im hit, Int.toNat_natCast]
  have hU : (Us.map fun u => u.data it im) = List.zipWith (fun x y => a * x + b * y) (Ws.map fun w => w.data it im) (Vs.map fun v => v.data it im) := by
    apply List.ext_getElem
    · simp; omega
    · intro k q1 q2
      have k1 : k < Us.length := by simpa using q1
      simp only [List.getElem_map, List.getElem_zipWith]
      exact hlin k _ _ _ (List.getElem?_eq_getElem (by omega)) (List.getElem?_eq_getElem (by omega)) (List.getElem?_eq_getElem k1) it im
  unfold samples
  rw [hU, fit_linear polyfit hf N _ _ _ (by simp [hw.count]) (by simp [hv.count])]
  · rfl
  · have := samples_distinct Ws radii it im N hw.count hd
    unfold Distinct at this
    rw [samples_fst Ws radii it im hw.count] at this
    exact this

/-! ### Rejections -/

/-- C28: too high an order, or too far back a waveform, is rejected. -/
theorem extrapolate_rejects (polyfit : Fit) (Ws : List (Wave I)) (hne : Ws ≠ []) (radii : List (List ℝ)) (orders : List Int) (omegas : List ℝ) (noise : Bool)
    (N : Int) (hN : N ∈ orders) (h : ¬ Possible Ws.length N) : extrapolate polyfit Ws radii orders omegas noise = .error .valueError := by
  obtain ⟨w0, ws, rfl⟩ := List.exists_cons_of_ne_nil hne
  obtain ⟨last, hlast⟩ : ∃ last, (w0 :: ws).getLast? = some last := ⟨_, List.getLast?_eq_some_getLast (by simp)⟩
  have ho : orders ≠ [] := List.ne_nil_of_mem hN
  obtain ⟨maxN, hmax⟩ : ∃ m, orders.max? = some m := Option.isSome_iff_exists.mp (by rw [List.isSome_max?_iff]; exact ho)
  obtain ⟨minN, hmin⟩ : ∃ m, orders.min? = some m := Option.isSome_iff_exists.mp (by rw [List.isSome_min?_iff]; exact ho)
  have hmaxm := (List.max?_eq_some_iff.mp hmax).2 N hN
  have hminm := (List.min?_eq_some_iff.mp hmin).2 N hN
  unfold extrapolate
  rw [hmax, hmin, hlast]
  simp only [List.head?_cons]
  unfold Possible at h
  have hpos : 0 < (w0 :: ws).length := by simp
  by_cases c1 : (minN.natAbs : Int) > (w0 :: ws).length
  · rw [if_pos c1]
  · rw [if_neg c1, if_pos]
    omega

/-- C28, the option `UseOmega`: with any frequencies the function fails, since it calls the array of modes. -/
theorem extrapolate_omegas (polyfit : Fit) (Ws : List (Wave I)) (radii : List (List ℝ)) (nTimes nModes : Nat) (hc : Consistent Ws radii nTimes nModes)
    (ht : 0 < nTimes) (hm : 0 < nModes) (orders : List Int) (hp : ∀ N ∈ orders, Possible Ws.length N) (hN : ∃ N ∈ orders, 0 ≤ N) (omegas : List ℝ)
    (hom : omegas.length = nTimes) (noise : Bool) : extrapolate polyfit Ws radii orders omegas noise = .error .typeError := by
  obtain ⟨N, hN, h0⟩ := hN
  obtain ⟨last, maxN, -, hneg, hex⟩ := extrapolate_unfold polyfit Ws radii nTimes nModes hc orders (List.ne_nil_of_mem hN) hp omegas (Or.inr hom) noise
  rw [hex]
  unfold abscissas
  rw [if_neg (fun h => by have := hneg.mp h N hN; omega)]
  unfold timeLoop
  rw [mapM_error _ .typeError _ (by simp; omega)]
  · rfl
  · intro it _
    rw [if_pos (decide_eq_true (by omega)), if_neg (by omega)]

/-- C28, the option `NoiseFloor`: for `psi0` and `psi1` the function fails, since it reads a variable before setting it. -/
theorem extrapolate_noise_floor (polyfit : Fit) (Ws : List (Wave I)) (radii : List (List ℝ)) (nTimes nModes : Nat) (hc : Consistent Ws radii nTimes nModes)
    (ht : 0 < nTimes) (orders : List Int) (hp : ∀ N ∈ orders, Possible Ws.length N) (hN : ∃ N ∈ orders, 0 ≤ N) (hpsi : ∀ w ∈ Ws, w.psi01 = true) :
    extrapolate polyfit Ws radii orders [] true = .error .unboundLocal := by
  obtain ⟨N, hN, h0⟩ := hN
  obtain ⟨last, maxN, hlast, hneg, hex⟩ := extrapolate_unfold polyfit Ws radii nTimes nModes hc orders (List.ne_nil_of_mem hN) hp [] (Or.inl rfl) true
  rw [hex]
  unfold abscissas
  rw [if_neg (fun h => by have := hneg.mp h N hN; omega)]
  unfold timeLoop
  rw [mapM_error _ .unboundLocal _ (by simp; omega)]
  · rfl
  · intro it hit
    rw [if_neg (by simp), oneOverRadii_ok radii nTimes it hc.lengths (List.mem_range.mp hit), ok_bind, if_pos]
    rw [hpsi last (List.mem_of_getLast? hlast)]; rfl

/-- C28: waveforms with different numbers of times are not rejected with the `ValueError` that the code means to raise. -/
theorem extrapolate_mismatch (polyfit : Fit) (w v : Wave I) (hne : v.nTimes ≠ w.nTimes) (r s : List ℝ) (noise : Bool) :
    extrapolate polyfit [w, v] [r, s] [0] [] noise = .error .keyError := by
  unfold extrapolate
  simp only [List.max?_singleton, List.min?_singleton, List.head?_cons, List.getLast?_cons_cons, List.getLast?_singleton]
  rw [if_neg (by simp), if_neg (by simp), if_neg (by simp), if_neg (by simp)]
  simp only [List.tail_cons, checkRest, checkOne]
  rw [if_pos hne]; rfl

/-! ### A case -/

/-- Two waveforms at radii 1 and 2 with one time and one mode: `3 + 4/r`. -/
noncomputable def caseWs : List (Wave Unit) := [⟨1, 1, fun _ _ => 7, false, ()⟩, ⟨1, 1, fun _ _ => 5, false, ()⟩]
noncomputable def caseRadii : List (List ℝ) := [[1], [2]]

theorem case_consistent : Consistent caseWs caseRadii 1 1 :=
  ⟨by simp [caseWs], rfl, by simp [caseWs], by simp [caseWs], by simp [caseRadii]⟩

example : ∃ (fit : Fit) (out : List (Wave Unit)) (w : Wave Unit), LeastSquares fit ∧ extrapolate fit caseWs caseRadii [-1, 1] [] false = .ok out ∧
    out[1]? = some w ∧ w.data 0 0 = 3 := by
  obtain ⟨fit, hfit⟩ := exists_leastSquares
  obtain ⟨out, w, h1, h2, h3⟩ := extrapolate_exact fit hfit caseWs caseRadii 1 1 case_consistent [-1, 1]
    (by intro N hN; simp at hN; rcases hN with rfl | rfl <;> simp [Possible, caseWs]) false (Or.inl rfl) 1 1 rfl 0 0 (by norm_num)
    (by simp [radiiAt, caseRadii]) ![3, 4] (by
      intro k w r hw hr
      match k with
      | 0 => simp [caseWs, caseRadii] at hw hr; subst hw; subst hr; rw [Fin.sum_univ_two]; norm_num
      | 1 => simp [caseWs, caseRadii] at hw hr; subst hw; subst hr; rw [Fin.sum_univ_two]; norm_num
      | (n + 2) => simp [caseWs] at hw)
  exact ⟨fit, out, w, hfit, h1, h2, by simpa using h3⟩

end Verif.Props.Extrapolate
