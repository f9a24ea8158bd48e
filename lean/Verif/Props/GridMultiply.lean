import Verif.Lemmas.GridInjective

/-!
# Properties of `grid_multiply` (C48)
-/

namespace Verif.Props.GridMultiply

open Verif Verif.Modes Verif.Superrest Verif.GridMultiply Verif.GridMultiply.Spec

/-! ## Functions on the sphere -/

/-- The contract of `map2salm` can be met: values on the grid determine the modes. -/
theorem exact_exists : ∃ map2salm, Exact map2salm := by
  classical
  let P (grid : List ℂ) (s lmax : Int) (row : Row ℂ) : Prop := (nodes (2 * lmax + 1).toNat).map (expansion s lmax (modesOf row)) = grid
  refine ⟨fun grid s lmax => if h : ∃ row, P grid s lmax row then Classical.choose h else fun _ => 0, ?_⟩
  intro s lmax c ell m h1 h2 h3 h4 h5
  -- a row that holds the modes `c`
  have hrow : ∃ row : Row ℂ, ∀ ell m : Int, -ell ≤ m → m ≤ ell → modesOf row ell m = c ell m := by
    refine ⟨fun i => if h : ∃ lm : Int × Int, (-lm.1 ≤ lm.2 ∧ lm.2 ≤ lm.1) ∧ lmIndex lm.1 lm.2 0 = i then c (Classical.choose h).1 (Classical.choose h).2 else 0, ?_⟩
    intro ell m h1 h2
    unfold modesOf
    have hex : ∃ lm : Int × Int, (-lm.1 ≤ lm.2 ∧ lm.2 ≤ lm.1) ∧ lmIndex lm.1 lm.2 0 = lmIndex ell m 0 := ⟨(ell, m), ⟨h1, h2⟩, rfl⟩
    simp only [dif_pos hex]
    have hc := Classical.choose_spec hex
    have := lmIndex_inj hc.1 ⟨h1, h2⟩ hc.2
    rw [this.1, this.2]
  obtain ⟨row, hr⟩ := hrow
  have hex : ∃ row, P ((nodes (2 * lmax + 1).toNat).map (expansion s lmax c)) s lmax row := by
    refine ⟨row, ?_⟩
    show List.map _ _ = List.map _ _
    refine List.map_congr_left fun R _ => ?_
    unfold expansion
    refine Finset.sum_congr rfl fun a _ => Finset.sum_congr rfl fun b hb => ?_
    rw [Finset.mem_Icc] at hb
    rw [hr a b hb.1 hb.2]
  simp only [dif_pos hex]
  have := Classical.choose_spec hex
  exact grid_injective s lmax h1 _ _ this ell m h2 h3 h4 h5

/-- The product of functions with modes up to `L` and `L'` has modes up to `L + L'`, and the sum of the spin weights. -/
theorem product_modes (s s' L L' : Int) (c c' : Int → Int → ℂ) : ∃ d, ∀ R, Spec.Unit R → expansion s L c R * expansion s' L' c' R = expansion (s + s') (L + L') d R :=
  expansion_mul s s' L L' c c'

/-- Modes beyond the highest are 0. -/
theorem expansion_extend (s : Int) {L M : Int} (h : L ≤ M) (e : Int → Int → ℂ) (R : Quaternion ℝ) : expansion s M (fun a b => if a ≤ L then e a b else 0) R = expansion s L e R := by
  unfold expansion
  symm
  refine Finset.sum_subset_zero_on_sdiff (Finset.Icc_subset_Icc_right h) (fun a ha => ?_) (fun a ha => ?_)
  · rw [Finset.mem_sdiff, Finset.mem_Icc, Finset.mem_Icc] at ha
    refine Finset.sum_eq_zero fun b _ => ?_
    show (if a ≤ L then e a b else 0) * _ = 0
    rw [if_neg (by omega), zero_mul]
  · rw [Finset.mem_Icc] at ha
    refine Finset.sum_congr rfl fun b _ => ?_
    show _ = (if a ≤ L then e a b else 0) * _
    rw [if_pos ha.2]

/-- Modes are unique: equal functions have equal modes. -/
theorem modes_unique (s L : Int) (c d : Int → Int → ℂ) (h : ∀ R, Spec.Unit R → expansion s L c R = expansion s L d R) (ell m : Int) (h1 : |s| ≤ ell) (h2 : ell ≤ L) (h3 : -ell ≤ m) (h4 : m ≤ ell) :
    c ell m = d ell m := by
  have ext := fun e => expansion_extend s (le_max_left L 1) e
  have := grid_injective s (max L 1) (le_max_right _ _) (fun a b => if a ≤ L then c a b else 0) (fun a b => if a ≤ L then d a b else 0)
    (List.map_congr_left fun R hR => by rw [ext, ext, h R (nodes_unit _ R hR)]) ell m h1 (le_trans h2 (le_max_left _ _)) h3 h4
  simpa [h2] using this

/-! ## `grid_multiply` -/

theorem sum_pyRange (a b : Int) (f : Int → ℂ) : ((pyRange a (b + 1)).map f).sum = ∑ x ∈ Finset.Icc a b, f x := by
  rw [← List.sum_toFinset f (pyRange_nodup _ _)]
  refine Finset.sum_congr (Finset.ext fun x => ?_) fun _ _ => rfl
  rw [List.mem_toFinset, mem_pyRange, Finset.mem_Icc]
  omega

theorem value_eq (s L : Int) (row : Row ℂ) (R : Quaternion ℝ) : value s L row R = expansion s L (modesOf row) R := by
  unfold value LMRange expansion
  rw [List.map_flatMap, List.flatMap_def, List.sum_flatten, List.map_map]
  rw [← sum_pyRange 0 L]
  congr 1
  refine List.map_congr_left fun ell _ => ?_
  show (List.map _ (List.map _ _)).sum = _
  rw [List.map_map, ← sum_pyRange]
  rfl

theorem zip_map {α : Type} (l : List α) (f g : α → ℂ) : List.zipWith (· * ·) (l.map f) (l.map g) = l.map fun x => f x * g x := by
  induction l with
  | nil => rfl
  | cons x l ih => simp only [List.map_cons, List.zipWith_cons_cons, ih]

/-- The product of two rows on the grid. -/
theorem row_product (map2salm : List ℂ → Int → Int → Row ℂ) (hE : Exact map2salm) (s s' L L' w : Int) (hw : 1 ≤ w) (hL : L + L' ≤ w) (a b : Row ℂ) :
    ∃ c : Int → Int → ℂ, (∀ R, Spec.Unit R → expansion s L (modesOf a) R * expansion s' L' (modesOf b) R = expansion (s + s') (L + L') c R) ∧
      ∀ ell m, 0 ≤ ell → ell ≤ w → -ell ≤ m → m ≤ ell →
        modesOf (modesNew (s + s') 0 (map2salm (List.zipWith (· * ·) (salm2map a s L (2 * w + 1).toNat) (salm2map b s' L' (2 * w + 1).toNat)) (s + s') w)) ell m =
          if |s + s'| ≤ ell ∧ ell ≤ L + L' then c ell m else 0 := by
  obtain ⟨d, hd⟩ := product_modes s s' L L' (modesOf a) (modesOf b)
  refine ⟨d, hd, fun ell m h1 h2 h3 h4 => ?_⟩
  have hgrid : List.zipWith (· * ·) (salm2map a s L (2 * w + 1).toNat) (salm2map b s' L' (2 * w + 1).toNat) =
      (nodes (2 * w + 1).toNat).map (expansion (s + s') w fun a b => if a ≤ L + L' then d a b else 0) := by
    unfold salm2map
    rw [zip_map]
    refine List.map_congr_left fun R hR => ?_
    rw [value_eq, value_eq, hd R (nodes_unit _ R hR)]
    exact (expansion_extend _ hL d R).symm
  have hb := lmIndex_block 0 ⟨h3, h4⟩
  rw [hgrid]
  by_cases hs : |s + s'| ≤ ell
  · have := hE (s + s') w (fun a b => if a ≤ L + L' then d a b else 0) ell m hw hs h2 h3 h4
    unfold modesOf at this ⊢
    unfold modesNew
    have hlow : ¬ (lmIndex ell m 0 < (s + s') ^ 2 ∨ lmIndex ell m 0 < 0 ^ 2) := by
      have h6 : (s + s') ^ 2 ≤ ell ^ 2 := sq_le_sq' (by have := (abs_le.mp hs).1; omega) (abs_le.mp hs).2
      unfold lmIndex
      have : ell ^ 2 ≤ ell * (ell + 1) - 0 ^ 2 + m := by nlinarith
      have h7 := sq_nonneg ell
      intro h
      rcases h with h | h <;> nlinarith
    rw [if_neg hlow, show lmIndex ell m 0 - 0 ^ 2 = lmIndex ell m 0 by ring, this]
    by_cases h5 : ell ≤ L + L'
    · rw [if_pos h5, if_pos ⟨hs, h5⟩]
    · rw [if_neg h5, if_neg fun h => h5 h.2]
  · rw [if_neg fun h => hs h.1]
    unfold modesOf modesNew
    refine if_pos (.inl ?_)
    unfold lmIndex
    have h6 : ell + 1 ≤ |s + s'| := by omega
    have h7 : (ell + 1) ^ 2 ≤ (s + s') ^ 2 := by
      rw [← sq_abs (s + s')]
      exact pow_le_pow_left₀ (by omega) h6 2
    nlinarith

/-- The rows of the broadcast product. -/
theorem broadcast_rows (F G : Row ℂ → List ℂ) (f g : List (Row ℂ)) (n : Nat) (hf : f.length = n ∨ f.length = 1) (hg : g.length = n ∨ g.length = 1) :
    ∃ P, broadcast (f.map F) (g.map G) = .ok P ∧ (P.length = n ∨ P.length = 1) ∧
      ∀ (i : Nat) (a b : Row ℂ), i < n → (if f.length = 1 then f[0]? else f[i]?) = some a → (if g.length = 1 then g[0]? else g[i]?) = some b →
        (if P.length = 1 then P[0]? else P[i]?) = some (List.zipWith (· * ·) (F a) (G b)) := by
  unfold broadcast
  by_cases he : f.length = g.length
  · rw [if_pos (by simpa using he)]
    refine ⟨_, rfl, by simp [he]; omega, fun i a b hi ha hb => ?_⟩
    have hlen : (List.zipWith (List.zipWith (· * ·)) (f.map F) (g.map G)).length = f.length := by simp [he]
    rw [hlen]
    by_cases h1 : f.length = 1
    · rw [if_pos h1] at ha ⊢
      rw [if_pos (he ▸ h1)] at hb
      simp [List.getElem?_zipWith, ha, hb]
    · rw [if_neg h1] at ha ⊢
      rw [if_neg (he ▸ h1)] at hb
      simp [List.getElem?_zipWith, ha, hb]
  · rw [if_neg (by simpa using he)]
    rcases hf with hf | hf
    · have hg1 : g.length = 1 := by rcases hg with h | h <;> omega
      obtain ⟨y, rfl⟩ := List.length_eq_one_iff.mp hg1
      have hne : ∀ x, f.map F ≠ [x] := by
        intro x h
        have := congrArg List.length h
        simp at this he
        omega
      refine ⟨(f.map F).map fun x => List.zipWith (· * ·) x (G y), ?_, by simp [hf], fun i a b hi ha hb => ?_⟩
      · rcases hfm : f.map F with _ | ⟨x, _ | ⟨x', l⟩⟩
        · rfl
        · exact absurd hfm (hne x)
        · rfl
      · have h1 : f.length ≠ 1 := by simpa using he
        rw [if_neg h1] at ha
        rw [if_neg (by simpa using h1)]
        simp at hb
        subst hb
        simp [ha]
    · obtain ⟨x, rfl⟩ := List.length_eq_one_iff.mp hf
      refine ⟨(g.map G).map (List.zipWith (· * ·) (F x)), rfl, by simp; exact hg, fun i a b hi ha hb => ?_⟩
      have h1 : g.length ≠ 1 := fun h => he (by simp [h])
      rw [if_neg h1] at hb
      rw [if_neg (by simpa using h1)]
      simp at ha
      subst ha
      simp [hb]

/-- C48: if the times agree and the working `ell_max` is at least the sum (the default), `grid_multiply` returns, for every time, the modes of the product of the two functions up to the chosen
`ell_max`; the spin weights add. -/
theorem product (map2salm : List ℂ → Int → Int → Row ℂ) (hE : Exact map2salm) (f g : MTS) (hf : Shaped f) (hg : Shaped g) (ht : f.t = g.t) (working output : Option Int) (w o : Int)
    (hw : working.getD (f.ellMax + g.ellMax) = w) (ho : output.getD f.ellMax = o) (hw1 : 1 ≤ w) (hsum : f.ellMax + g.ellMax ≤ w) (ho0 : 0 ≤ o) (how : o ≤ w) :
    ∃ out, gridMultiply map2salm f g working output = .ok out ∧ out.s = f.s + g.s ∧ out.ellMax = o ∧ out.t = f.t ∧ Shaped out ∧
      ∀ (i : Nat) (a b : Row ℂ), i < f.t.length → rowAt f i = some a → rowAt g i = some b → ∃ r c, rowAt out i = some r ∧
        (∀ R, Spec.Unit R → expansion f.s f.ellMax (modesOf a) R * expansion g.s g.ellMax (modesOf b) R = expansion (f.s + g.s) (f.ellMax + g.ellMax) c R) ∧
        ∀ ell m, 0 ≤ ell → ell ≤ o → -ell ≤ m → m ≤ ell → modesOf r ell m = if |f.s + g.s| ≤ ell ∧ ell ≤ f.ellMax + g.ellMax then c ell m else 0 := by
  obtain ⟨P, hP, hlen, hrows⟩ := broadcast_rows (fun row => salm2map row f.s f.ellMax (2 * w + 1).toNat) (fun row => salm2map row g.s g.ellMax (2 * w + 1).toNat) f.data g.data f.t.length hf (by rw [ht]; exact hg)
  refine ⟨{ s := f.s + g.s, ellMax := o, t := f.t, data := (P.map fun grid => map2salm grid (f.s + g.s) w).map (modesNew (f.s + g.s) 0) }, ?_, rfl, rfl, rfl, ?_, ?_⟩
  · unfold gridMultiply
    simp only [hw, ho]
    rw [if_neg (by rw [ht]; simp), hP, ok_bind]
    have hcols : min ((w + 1) ^ 2) (lmIndex o o 0 + 1) = (o + 1) ^ 2 := by
      have e : lmIndex o o 0 + 1 = (o + 1) ^ 2 := by unfold lmIndex; ring
      rw [e]
      exact min_eq_right (pow_le_pow_left₀ (by omega) (by omega) 2)
    unfold modes
    rw [hcols, if_neg (by push Not; exact ⟨by omega, rfl⟩), ok_bind]
    unfold series
    rw [if_neg (by simp; omega)]
  · unfold Shaped
    simp only [List.length_map]
    exact hlen
  · intro i a b hi ha hb
    obtain ⟨c, hc1, hc2⟩ := row_product map2salm hE f.s g.s f.ellMax g.ellMax w hw1 hsum a b
    refine ⟨_, c, ?_, hc1, fun ell m h1 h2 h3 h4 => hc2 ell m h1 (by omega) h3 h4⟩
    have := hrows i a b hi ha hb
    unfold rowAt
    simp only [List.length_map, List.getElem?_map]
    split_ifs at this ⊢
    · rw [this]; rfl
    · rw [this]; rfl

/-- C48: with an output `ell_max` of at least the sum, the values of the result are the products of the values. -/
theorem product_values (map2salm : List ℂ → Int → Int → Row ℂ) (hE : Exact map2salm) (f g : MTS) (hf : Shaped f) (hg : Shaped g) (ht : f.t = g.t) (working output : Option Int) (w o : Int)
    (hw : working.getD (f.ellMax + g.ellMax) = w) (ho : output.getD f.ellMax = o) (hw1 : 1 ≤ w) (hsum : f.ellMax + g.ellMax ≤ o) (ho0 : 0 ≤ o) (how : o ≤ w) :
    ∃ out, gridMultiply map2salm f g working output = .ok out ∧ ∀ (i : Nat) (a b : Row ℂ), i < f.t.length → rowAt f i = some a → rowAt g i = some b → ∃ r, rowAt out i = some r ∧
      ∀ R, Spec.Unit R → expansion out.s out.ellMax (modesOf r) R = expansion f.s f.ellMax (modesOf a) R * expansion g.s g.ellMax (modesOf b) R := by
  obtain ⟨out, e, e1, e2, e3, -, h⟩ := product map2salm hE f g hf hg ht working output w o hw ho hw1 (by omega) ho0 how
  refine ⟨out, e, fun i a b hi ha hb => ?_⟩
  obtain ⟨r, c, h1, h2, h3⟩ := h i a b hi ha hb
  refine ⟨r, h1, fun R hR => ?_⟩
  rw [h2 R hR, e1, e2]
  unfold expansion
  symm
  refine Finset.sum_subset_zero_on_sdiff (Finset.Icc_subset_Icc_right hsum) (fun a ha => ?_) (fun a ha => ?_)
  · rw [Finset.mem_sdiff, Finset.mem_Icc, Finset.mem_Icc] at ha
    refine Finset.sum_eq_zero fun b hb => ?_
    rw [Finset.mem_Icc] at hb
    rw [h3 a b (by omega) (by omega) hb.1 hb.2, if_neg (by omega), zero_mul]
  · rw [Finset.mem_Icc] at ha
    refine Finset.sum_congr rfl fun b hb => ?_
    rw [Finset.mem_Icc] at hb
    rw [h3 a b (by omega) (by omega) hb.1 hb.2]
    by_cases hs : |f.s + g.s| ≤ a
    · rw [if_pos ⟨hs, ha.2⟩]
    · have : Y (f.s + g.s) a b R = 0 := if_neg hs
      rw [this, mul_zero, mul_zero]

/-- C48: different times raise ValueError. -/
theorem times_differ (map2salm : List ℂ → Int → Int → Row ℂ) (f g : MTS) (working output : Option Int) (h : f.t ≠ g.t) : gridMultiply map2salm f g working output = .error .valueError := by
  unfold gridMultiply
  simp only
  rw [if_pos (.inr h)]

/-- C48: an output `ell_max` beyond the working one raises ValueError, whatever the data. -/
theorem output_beyond (map2salm : List ℂ → Int → Int → Row ℂ) (f g : MTS) (hf : Shaped f) (hg : Shaped g) (ht : f.t = g.t) (working output : Option Int) (w o : Int)
    (hw : working.getD (f.ellMax + g.ellMax) = w) (ho : output.getD f.ellMax = o) (hw0 : 0 ≤ w) (how : w < o) : gridMultiply map2salm f g working output = .error .valueError := by
  obtain ⟨P, hP, -⟩ := broadcast_rows (fun row => salm2map row f.s f.ellMax (2 * w + 1).toNat) (fun row => salm2map row g.s g.ellMax (2 * w + 1).toNat) f.data g.data f.t.length hf (by rw [ht]; exact hg)
  unfold gridMultiply
  simp only [hw, ho]
  rw [if_neg (by rw [ht]; simp), hP, ok_bind]
  unfold modes
  have h1 : (w + 1) ^ 2 < (o + 1) ^ 2 := pow_lt_pow_left₀ (by omega) (by omega) (by norm_num)
  rw [if_pos (.inr (ne_of_lt (lt_of_le_of_lt (min_le_left _ _) h1))), error_bind]

/-- A time series whose only mode is (1, 1). -/
noncomputable def one11 : MTS := { s := 0, ellMax := 1, t := [0], data := [fun i => if i = 3 then 1 else 0] }

/-- The factor of the harmonic (1, 1). -/
noncomputable def K : ℂ := fac 0 1 1

theorem K_ne : K ≠ 0 := fac_ne 0 1 1 (by norm_num)

theorem fac_11 : fac 0 1 (-1) = K := by
  unfold K fac Wigner.nu
  norm_num [Nat.factorial]

theorem Y11 (θ φ : ℝ) : Y 0 1 1 (rotor θ φ) = -K * Complex.exp (φ * Complex.I) * (Real.sin θ : ℝ) := by
  rw [Y_rotor (by norm_num) (by norm_num) (by norm_num)]
  have : Real.sin θ = 2 * Real.sin (θ / 2) * Real.cos (θ / 2) := by rw [← Real.sin_two_mul]; congr 1; ring
  rw [this]
  simp [Wigner.coef, Finset.sum_filter, Finset.sum_range_succ, K]
  ring_nf
  simp

theorem Y1m1 (θ φ : ℝ) : Y 0 1 (-1) (rotor θ φ) = K * Complex.exp (-φ * Complex.I) * (Real.sin θ : ℝ) := by
  rw [Y_rotor (by norm_num) (by norm_num) (by norm_num), fac_11]
  have : Real.sin θ = 2 * Real.sin (θ / 2) * Real.cos (θ / 2) := by rw [← Real.sin_two_mul]; congr 1; ring
  rw [this]
  simp [Wigner.coef, Finset.sum_filter]

theorem Y22 (θ φ : ℝ) : Y 0 2 2 (rotor θ φ) = fac 0 2 2 * (3 / 2) * Complex.exp (2 * φ * Complex.I) * (Real.sin θ : ℝ) ^ 2 := by
  rw [Y_rotor (by norm_num) (by norm_num) (by norm_num)]
  have : Real.sin θ = 2 * Real.sin (θ / 2) * Real.cos (θ / 2) := by rw [← Real.sin_two_mul]; congr 1; ring
  rw [this]
  simp [Wigner.coef, Finset.sum_filter, Finset.sum_range_succ, Nat.choose]
  ring

theorem single (L l m : Int) (h1 : 0 ≤ l) (h2 : l ≤ L) (h3 : -l ≤ m) (h4 : m ≤ l) (s : Int) (x : ℂ) (R : Quaternion ℝ) : expansion s L (fun a b => if a = l ∧ b = m then x else 0) R = x * Y s l m R := by
  unfold expansion
  rw [Finset.sum_eq_single l, Finset.sum_eq_single m]
  · simp
  · intro b _ hb; simp [hb]
  · intro hb; exact absurd (Finset.mem_Icc.mpr ⟨h3, h4⟩) hb
  · intro a _ ha; simp [ha]
  · intro hb; exact absurd (Finset.mem_Icc.mpr ⟨h1, h2⟩) hb

theorem one11_value (R : Quaternion ℝ) : expansion 0 1 (modesOf fun i => if i = 3 then 1 else 0) R = Y 0 1 1 R := by
  have : expansion 0 1 (modesOf fun i => if i = 3 then 1 else 0) R = expansion 0 1 (fun a b => if a = 1 ∧ b = 1 then 1 else 0) R := by
    unfold expansion
    refine Finset.sum_congr rfl fun a ha => Finset.sum_congr rfl fun b hb => ?_
    rw [Finset.mem_Icc] at ha hb
    congr 1
    unfold modesOf lmIndex
    have : a = 0 ∨ a = 1 := by omega
    rcases this with rfl | rfl
    · have : b = 0 := by omega
      subst this
      simp
    · by_cases h : b = 1
      · subst h; norm_num
      · simp [h]; omega
  rw [this, single 1 1 1 (by norm_num) (by norm_num) (by norm_num) (by norm_num)]
  ring

/-- A working `ell_max` that is less than the sum gives wrong modes, as the documentation warns: the square of the harmonic (1, 1) has no mode (1, -1), but the result has. -/
theorem aliasing (map2salm : List ℂ → Int → Int → Row ℂ) (hE : Exact map2salm) :
    ∃ out r, gridMultiply map2salm one11 one11 (some 1) none = .ok out ∧ rowAt out 0 = some r ∧ modesOf r 1 (-1) ≠ 0 ∧
      ∀ c, (∀ R, Spec.Unit R → expansion 0 1 (modesOf fun i => if i = 3 then 1 else 0) R * expansion 0 1 (modesOf fun i => if i = 3 then 1 else 0) R = expansion 0 2 c R) → c 1 (-1) = 0 := by
  have hgrid : List.zipWith (· * ·) (salm2map (fun i => if i = 3 then 1 else 0) 0 1 3) (salm2map (fun i => if i = 3 then 1 else 0) 0 1 3) =
      (nodes 3).map (expansion 0 1 (fun a b => if a = 1 ∧ b = -1 then K else 0)) := by
    unfold salm2map
    rw [zip_map]
    refine List.map_congr_left fun R hR => ?_
    unfold nodes at hR
    rw [List.mem_flatMap] at hR
    obtain ⟨j, hj, hR⟩ := hR
    obtain ⟨k, hk, rfl⟩ := List.mem_map.mp hR
    rw [List.mem_range] at hj hk
    rw [value_eq, one11_value, single 1 1 (-1) (by norm_num) (by norm_num) (by norm_num) (by norm_num), Y11, Y1m1]
    have hsin : Real.sin (Real.pi * j / ((3 : ℕ) - 1 : ℝ)) ^ 2 = Real.sin (Real.pi * j / ((3 : ℕ) - 1 : ℝ)) := by
      have : j = 0 ∨ j = 1 ∨ j = 2 := by omega
      rcases this with rfl | rfl | rfl
      · simp
      · rw [show Real.pi * (1 : ℕ) / ((3 : ℕ) - 1 : ℝ) = Real.pi / 2 by push_cast; ring, Real.sin_pi_div_two]; norm_num
      · rw [show Real.pi * (2 : ℕ) / ((3 : ℕ) - 1 : ℝ) = Real.pi by push_cast; ring, Real.sin_pi]; norm_num
    generalize Real.sin (Real.pi * j / ((3 : ℕ) - 1 : ℝ)) = S at hsin
    set φ : ℝ := 2 * Real.pi * k / (3 : ℕ) with hφ
    have hexp : Complex.exp (φ * Complex.I) * Complex.exp (φ * Complex.I) = Complex.exp (-φ * Complex.I) := by
      have h3 : Complex.exp ((3 * φ : ℝ) * Complex.I) = 1 := by
        rw [Complex.exp_eq_one_iff]
        refine ⟨k, ?_⟩
        rw [hφ]
        push_cast
        ring
      rw [← Complex.exp_add, ← mul_one (Complex.exp (-φ * Complex.I)), ← h3, ← Complex.exp_add]
      congr 1
      push_cast
      ring
    have hS : (S : ℂ) ^ 2 = S := by exact_mod_cast congrArg (fun x : ℝ => (x : ℂ)) hsin
    rw [← hexp]
    linear_combination K ^ 2 * Complex.exp (φ * Complex.I) ^ 2 * hS
  let r := modesNew 0 0 (map2salm ((nodes 3).map (expansion 0 1 (fun a b => if a = 1 ∧ b = -1 then K else 0))) 0 1)
  refine ⟨{ s := 0, ellMax := 1, t := [0], data := [r] }, r, ?_, rfl, ?_, fun c hc => ?_⟩
  · have e : broadcast [salm2map (fun i => if i = 3 then 1 else 0) 0 1 3] [salm2map (fun i => if i = 3 then 1 else 0) 0 1 3] = .ok [(nodes 3).map (expansion 0 1 (fun a b => if a = 1 ∧ b = -1 then K else 0))] := by
      rw [← hgrid]
      rfl
    have e0 : gridMultiply map2salm one11 one11 (some 1) none = (do
      let P ← broadcast [salm2map (fun i => if i = 3 then 1 else 0) 0 1 3] [salm2map (fun i => if i = 3 then 1 else 0) 0 1 3]
      let Q ← modes (P.map fun grid => map2salm grid (0 + 0) 1) (min ((1 + 1) ^ 2) (lmIndex 1 1 0 + 1)) (0 + 0) 1
      series Q (0 + 0) 1 [0]) := by
      unfold gridMultiply
      exact if_neg (by simp)
    rw [e0, e, ok_bind]
    rfl
  · have := hE 0 1 (fun a b => if a = 1 ∧ b = -1 then K else 0) 1 (-1) (by norm_num) (by norm_num) (by norm_num) (by norm_num) (by norm_num)
    have e : modesOf r 1 (-1) = modesOf (map2salm ((nodes 3).map (expansion 0 1 (fun a b => if a = 1 ∧ b = -1 then K else 0))) 0 1) 1 (-1) := by
      show modesNew 0 0 _ _ = _
      unfold modesNew modesOf
      rw [if_neg (by unfold lmIndex; norm_num)]
      rfl
    rw [e, show (3 : ℕ) = (2 * (1 : Int) + 1).toNat by rfl, this]
    simpa using K_ne
  · have h22 : fac 0 2 2 * (3 / 2) ≠ 0 := mul_ne_zero (fac_ne 0 2 2 (by norm_num)) (by norm_num)
    have := grid_injective 0 2 (by norm_num) c (fun a b => if a = 2 ∧ b = 2 then K ^ 2 / (fac 0 2 2 * (3 / 2)) else 0) (List.map_congr_left fun R hR => by
      have hu := nodes_unit _ R hR
      unfold nodes at hR
      rw [List.mem_flatMap] at hR
      obtain ⟨j, hj, hR⟩ := hR
      obtain ⟨k, hk, rfl⟩ := List.mem_map.mp hR
      rw [← hc _ hu, one11_value, single 2 2 2 (by norm_num) (by norm_num) (by norm_num) (by norm_num), Y11, Y22]
      generalize fac 0 2 2 * (3 / 2) = x at h22
      rw [show (2 : ℂ) * ((2 * Real.pi * k / ((2 * (2 : Int) + 1).toNat : ℕ) : ℝ) : ℂ) * Complex.I = ((2 * Real.pi * k / ((2 * (2 : Int) + 1).toNat : ℕ) : ℝ) : ℂ) * Complex.I + ((2 * Real.pi * k / ((2 * (2 : Int) + 1).toNat : ℕ) : ℝ) : ℂ) * Complex.I by ring,
        Complex.exp_add]
      field_simp) 1 (-1) (by norm_num) (by norm_num) (by norm_num) (by norm_num)
    simpa using this

/-- The hypotheses of `product` can be met, with a product that is not 0. -/
example : ∃ map2salm, Exact map2salm ∧ Shaped one11 ∧ ∃ out, gridMultiply map2salm one11 one11 none (some 2) = .ok out := by
  obtain ⟨F, hF⟩ := exact_exists
  have hs : Shaped one11 := .inr rfl
  obtain ⟨out, h, -⟩ := product F hF one11 one11 hs hs rfl none (some 2) 2 2 rfl rfl (by norm_num) (by show (1 : Int) + 1 ≤ 2; norm_num) (by norm_num) (by norm_num)
  exact ⟨F, hF, hs, out, h⟩

end Verif.Props.GridMultiply
