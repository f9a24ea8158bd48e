import Verif.Lemmas.Flux
import Verif.Lemmas.Clebsch

/-!
# The operators of the flux formulas
-/

namespace Verif.Flux
open Verif.Modes Verif.Slicing Verif.Spec.Flux Verif.Spec.AngMom Verif.ModeCalc ComplexConjugate Finset
open Real (sqrt)

/-! ### Matrix elements of the generators -/

theorem matEl_sum (gen : List Entry) (j n l m : Int) :
    matEl gen j n l m = (gen.map fun e => if e.j = j ∧ e.n = n ∧ e.l = l ∧ e.m = m then e.val else 0).sum := by
  induction gen with
  | nil => rfl
  | cons e gen ih => rw [matEl_cons, List.map_cons, List.sum_cons, ih]

theorem sum_flatMap {α β : Type} (l : List α) (f : α → List β) (g : β → ℂ) :
    ((l.flatMap f).map g).sum = (l.map fun x => ((f x).map g).sum).sum := by
  induction l with
  | nil => rfl
  | cons x l ih => rw [List.flatMap_cons, List.map_append, List.sum_append, ih, List.map_cons, List.sum_cons]

theorem sum_filterMap {α β : Type} (l : List α) (f : α → Option β) (g : β → ℂ) :
    ((l.filterMap f).map g).sum = (l.map fun x => ((f x).map g).getD 0).sum := by
  induction l with
  | nil => rfl
  | cons x l ih =>
    rw [List.filterMap_cons, List.map_cons, List.sum_cons, ← ih]
    cases f x with
    | none => simp
    | some y => simp

theorem sum_pyRange (x y : Int) (G : Int → ℂ) : ((pyRange x (y + 1)).map G).sum = ∑ k ∈ Icc x y, G k := by
  have h1 : ((pyRange x (y + 1)).map G).sum = ∑ i ∈ (pyRange x (y + 1)).toFinset, G i :=
    (List.sum_toFinset G (pyRange_nodup x (y + 1))).symm
  rw [h1]
  apply sum_congr _ (fun _ _ => rfl)
  ext k
  rw [List.mem_toFinset, mem_pyRange, mem_Icc]
  omega

theorem matEl_ellLoop (a b q : Int) (val : Int → Int → Int → ℂ) (j n l m : Int) :
    matEl (ellLoop a b fun ell ellp m => if m + q < -ellp ∨ m + q > ellp then none else some ⟨ellp, m + q, ell, m, val ell ellp m⟩)
      j n l m = if (a ≤ l ∧ l ≤ b) ∧ (a ≤ j ∧ j ≤ b ∧ l - 1 ≤ j ∧ j ≤ l + 1) ∧ (-l ≤ m ∧ m ≤ l) ∧ (-j ≤ n ∧ n ≤ j) ∧ n = m + q
        then val l j m else 0 := by
  rw [matEl_sum]
  unfold ellLoop
  rw [sum_flatMap, sum_pyRange]
  have inner : ∀ ell ellp : Int, (((pyRange (-ell) (ell + 1)).filterMap fun m =>
      if m + q < -ellp ∨ m + q > ellp then none else some (⟨ellp, m + q, ell, m, val ell ellp m⟩ : Entry)).map fun e =>
        if e.j = j ∧ e.n = n ∧ e.l = l ∧ e.m = m then e.val else 0).sum =
      if ellp = j ∧ ell = l ∧ (-l ≤ m ∧ m ≤ l) ∧ (-j ≤ n ∧ n ≤ j) ∧ n = m + q then val l j m else 0 := by
    intro ell ellp
    rw [sum_filterMap, sum_pyRange]
    split
    · rename_i h
      obtain ⟨rfl, rfl, hm, hn, rfl⟩ := h
      rw [sum_eq_single_of_mem m (mem_Icc.mpr hm)]
      · rw [if_neg (by omega)]; simp
      · intro k _ hk
        split
        · rfl
        · simp [hk]
    · rename_i h
      apply sum_eq_zero
      intro k hk
      rw [mem_Icc] at hk
      split
      · rfl
      · rename_i h'
        simp only [Option.map_some, Option.getD_some]
        rw [if_neg]
        rintro ⟨rfl, rfl, rfl, rfl⟩
        exact h ⟨rfl, rfl, hk, by omega, rfl⟩
  have mid : ∀ ell : Int, (((pyRange (max a (ell - 1)) (min b (ell + 1) + 1)).flatMap fun ellp =>
      (pyRange (-ell) (ell + 1)).filterMap fun m =>
        if m + q < -ellp ∨ m + q > ellp then none else some (⟨ellp, m + q, ell, m, val ell ellp m⟩ : Entry)).map fun e =>
        if e.j = j ∧ e.n = n ∧ e.l = l ∧ e.m = m then e.val else 0).sum =
      if ell = l ∧ (a ≤ j ∧ j ≤ b ∧ l - 1 ≤ j ∧ j ≤ l + 1) ∧ (-l ≤ m ∧ m ≤ l) ∧ (-j ≤ n ∧ n ≤ j) ∧ n = m + q then val l j m else 0 := by
    intro ell
    rw [sum_flatMap, sum_pyRange]
    simp only [inner]
    split
    · rename_i h
      obtain ⟨rfl, hj, hm, hn, hq⟩ := h
      rw [sum_eq_single_of_mem j (mem_Icc.mpr (by omega))]
      · rw [if_pos ⟨rfl, rfl, hm, hn, hq⟩]
      · intro k _ hk
        rw [if_neg (fun h => hk h.1)]
    · rename_i h
      apply sum_eq_zero
      intro k hk
      rw [mem_Icc] at hk
      rw [if_neg]
      rintro ⟨rfl, rfl, hm, hn, hq⟩
      exact h ⟨rfl, by omega, hm, hn, hq⟩
  simp only [mid]
  split
  · rename_i h
    obtain ⟨hl, hj, hm, hn, hq⟩ := h
    rw [sum_eq_single_of_mem l (mem_Icc.mpr hl)]
    · rw [if_pos ⟨rfl, hj, hm, hn, hq⟩]
    · intro k _ hk
      rw [if_neg (fun h => hk h.1)]
  · rename_i h
    apply sum_eq_zero
    intro k hk
    rw [mem_Icc] at hk
    rw [if_neg]
    rintro ⟨rfl, hj, hm, hn, hq⟩
    exact h ⟨hk, hj, hm, hn, hq⟩

theorem mem_ellLoop {a b q : Int} {val : Int → Int → Int → ℂ} {e : Entry} :
    e ∈ ellLoop a b (fun ell ellp m => if m + q < -ellp ∨ m + q > ellp then none else some ⟨ellp, m + q, ell, m, val ell ellp m⟩) ↔
    (a ≤ e.l ∧ e.l ≤ b) ∧ (a ≤ e.j ∧ e.j ≤ b ∧ e.l - 1 ≤ e.j ∧ e.j ≤ e.l + 1) ∧ (-e.l ≤ e.m ∧ e.m ≤ e.l) ∧ (-e.j ≤ e.n ∧ e.n ≤ e.j) ∧
      e.n = e.m + q ∧ e.val = val e.l e.j e.m := by
  unfold ellLoop
  simp only [List.mem_flatMap, List.mem_filterMap, mem_pyRange]
  constructor
  · rintro ⟨ell, hell, ellp, hellp, m, hm, h⟩
    split at h
    · cases h
    · rename_i hn
      cases h
      simp only
      refine ⟨by omega, by omega, by omega, by omega, trivial, trivial⟩
  · rintro ⟨hl, hj, hm, hn, hq, hv⟩
    refine ⟨e.l, by omega, e.j, by omega, e.m, by omega, ?_⟩
    rw [if_neg (by omega), ← hq, ← hv]

theorem pZ_eq (s a b : Int) : pZ s a b = ellLoop a b fun ell ellp m => if m + 0 < -ellp ∨ m + 0 > ellp then none
    else some ⟨ellp, m + 0, ell, m, ((Real.sqrt ((2 * ell + 1) / (2 * ellp + 1)) * cg ell m 0 ellp * cg ell (-s) 0 ellp : ℝ) : ℂ)⟩ := by
  unfold pZ
  simp only [add_zero]

/-- The common part of the matrix elements of the three momentum operators. -/
noncomputable def el (s q lp l m : Int) : ℝ := Real.sqrt ((2 * l + 1) / (2 * lp + 1)) * cg l m q lp * cg l (-s) 0 lp

theorem sign_sq (x : Int) : ((if x % 2 = 0 then 1 else -1 : ℝ)) * (if x % 2 = 0 then 1 else -1) = 1 := by
  split <;> norm_num

theorem pPM_val (sign s lp l m : Int) (hl : 0 ≤ l) (hlp : 0 ≤ lp) :
    -1 * (sign : ℝ) * Real.sqrt (8 * Real.pi / 3) * swshYMatEl s lp sign l m = -(sign : ℝ) * Real.sqrt 2 * el s sign lp l m := by
  unfold swshYMatEl cg' el
  have hl' : (0 : ℝ) ≤ l := by exact_mod_cast hl
  have hlp' : (0 : ℝ) ≤ lp := by exact_mod_cast hlp
  have h1 : Real.sqrt (8 * Real.pi / 3) * Real.sqrt ((2 * 1 + 1) * (2 * l + 1) / (4 * Real.pi * (2 * lp + 1))) =
      Real.sqrt 2 * Real.sqrt ((2 * l + 1) / (2 * lp + 1)) := by
    rw [← Real.sqrt_mul (by positivity), ← Real.sqrt_mul (by norm_num)]
    congr 1
    have := Real.pi_pos
    field_simp
    ring
  have h2 := sign_sq (l + 1 - lp)
  calc _ = -(sign : ℝ) * (Real.sqrt (8 * Real.pi / 3) * Real.sqrt ((2 * 1 + 1) * (2 * l + 1) / (4 * Real.pi * (2 * lp + 1)))) *
        ((if (l + 1 - lp) % 2 = 0 then 1 else -1) * (if (l + 1 - lp) % 2 = 0 then 1 else -1)) * (cg l m sign lp * cg l (-s) 0 lp) := by ring
    _ = _ := by rw [h1, h2]; ring

theorem el_far {s q lp l m : Int} (h : lp < l - 1 ∨ l + 1 < lp) : el s q lp l m = 0 := by
  unfold el; rw [cg_far h]; ring

theorem el_out {s q lp l m : Int} (h : ¬ (-l ≤ m ∧ m ≤ l)) : el s q lp l m = 0 := by
  unfold el; rw [cg_zero h]; ring

/-- The elements of `p_z`. -/
theorem matEl_pZ (s a b j n l m : Int) (hj : a ≤ j ∧ j ≤ b) (hn : -j ≤ n ∧ n ≤ j) (hl : a ≤ l ∧ l ≤ b) (hm : -l ≤ m ∧ m ≤ l) :
    matEl (pZ s a b) j n l m = if n = m then (el s 0 j l m : ℂ) else 0 := by
  rw [pZ_eq, matEl_ellLoop]
  simp only [add_zero]
  by_cases hq : n = m
  · rw [if_pos hq]
    by_cases hd : l - 1 ≤ j ∧ j ≤ l + 1
    · rw [if_pos ⟨hl, ⟨hj.1, hj.2, hd⟩, hm, hn, hq⟩]; rfl
    · rw [if_neg (fun h => hd h.2.1.2.2), el_far (by omega)]; simp
  · rw [if_neg hq, if_neg (fun h => hq h.2.2.2.2)]

theorem matEl_pPM (sign s a b j n l m : Int) (hj : a ≤ j ∧ j ≤ b) (hn : -j ≤ n ∧ n ≤ j) (hl : a ≤ l ∧ l ≤ b) (hm : -l ≤ m ∧ m ≤ l) :
    matEl (pPM sign s a b) j n l m = if n = m + sign then ((-(sign : ℝ) * Real.sqrt 2 * el s sign j l m : ℝ) : ℂ) else 0 := by
  unfold pPM
  simp only
  rw [matEl_ellLoop]
  by_cases hq : n = m + sign
  · rw [if_pos hq]
    by_cases hd : l - 1 ≤ j ∧ j ≤ l + 1
    · rw [if_pos ⟨hl, ⟨hj.1, hj.2, hd⟩, hm, hn, hq⟩, pPM_val _ _ _ _ _ (by omega) (by omega)]
    · rw [if_neg (fun h => hd h.2.1.2.2), el_far (by omega)]; simp
  · rw [if_neg hq, if_neg (fun h => hq h.2.2.2.2)]

/-- An operator that adds `q` to `m`, applied to modes. -/
noncomputable def apply (a b q : Int) (c : Int → Int → Int → ℝ) (g : Fn) : Fn := fun j n =>
  ∑ l ∈ Icc a b, (c j l (n - q) : ℂ) * g l (n - q)

theorem bracket_apply (a b q : Int) (c : Int → Int → Int → ℝ) (hc : ∀ j l m, ¬ (-l ≤ m ∧ m ≤ l) → c j l m = 0)
    (M : Int → Int → Int → Int → ℂ) (hM : ∀ j n l m, a ≤ j ∧ j ≤ b → -j ≤ n ∧ n ≤ j → a ≤ l ∧ l ≤ b → -l ≤ m ∧ m ≤ l →
      M j n l m = if n = m + q then (c j l m : ℂ) else 0) (f g : Fn) :
    bracket a b f M g = inner a b f (apply a b q c g) := by
  unfold bracket Verif.Spec.AngMom.inner apply
  apply sum_congr rfl; intro j hj
  apply sum_congr rfl; intro n hn
  rw [mul_sum]
  apply sum_congr rfl; intro l hl
  rw [mem_Icc] at hj hn hl
  by_cases hm : -l ≤ n - q ∧ n - q ≤ l
  · rw [sum_eq_single_of_mem (n - q) (mem_Icc.mpr hm)]
    · rw [hM j n l (n - q) hj hn hl hm, if_pos (by ring)]; ring
    · intro m hm' hne
      rw [mem_Icc] at hm'
      rw [hM j n l m hj hn hl hm', if_neg (by omega)]; ring
  · rw [hc j l (n - q) hm]
    simp only [Complex.ofReal_zero, zero_mul, mul_zero]
    apply sum_eq_zero
    intro m hm'
    rw [mem_Icc] at hm'
    rw [hM j n l m hj hn hl hm', if_neg (by omega)]; ring

/-! ### The momentum operators are bounded by one -/

theorem gram (S : Finset Int) (c : Int → Int → ℝ) (x : Int → ℝ) (G : Int → ℝ) (Q : Finset Int)
    (hG : ∀ l1 ∈ S, ∀ l2 ∈ S, ∑ q ∈ Q, c q l1 * c q l2 = if l1 = l2 then G l1 else 0) :
    ∑ q ∈ Q, (∑ l ∈ S, c q l * x l) ^ 2 = ∑ l ∈ S, G l * x l ^ 2 := by
  have h1 : ∀ q, (∑ l ∈ S, c q l * x l) ^ 2 = ∑ l1 ∈ S, ∑ l2 ∈ S, x l1 * x l2 * (c q l1 * c q l2) := by
    intro q
    rw [sq, sum_mul_sum]
    apply sum_congr rfl; intro l1 _
    apply sum_congr rfl; intro l2 _
    ring
  simp only [h1]
  rw [sum_comm]
  apply sum_congr rfl; intro l1 hl1
  rw [sum_comm]
  rw [sum_eq_single_of_mem l1 hl1]
  · rw [← mul_sum, hG l1 hl1 l1 hl1, if_pos rfl]; ring
  · intro l2 hl2 hne
    rw [← mul_sum, hG l1 hl1 l2 hl2, if_neg (Ne.symm hne), mul_zero]

theorem gramC (S : Finset Int) (c : Int → Int → ℝ) (v : Int → ℂ) (G : Int → ℝ) (Q : Finset Int)
    (hG : ∀ l1 ∈ S, ∀ l2 ∈ S, ∑ q ∈ Q, c q l1 * c q l2 = if l1 = l2 then G l1 else 0) :
    ∑ q ∈ Q, Complex.normSq (∑ l ∈ S, (c q l : ℂ) * v l) = ∑ l ∈ S, G l * Complex.normSq (v l) := by
  have h : ∀ q, Complex.normSq (∑ l ∈ S, (c q l : ℂ) * v l) = (∑ l ∈ S, c q l * (v l).re) ^ 2 + (∑ l ∈ S, c q l * (v l).im) ^ 2 := by
    intro q
    rw [Complex.normSq_apply, Complex.re_sum, Complex.im_sum]
    simp only [Complex.re_ofReal_mul, Complex.im_ofReal_mul]
    ring
  simp only [h]
  rw [sum_add_distrib, gram S c _ G Q hG, gram S c _ G Q hG, ← sum_add_distrib]
  apply sum_congr rfl; intro l _
  rw [Complex.normSq_apply]; ring

theorem sum_q (F : Int → ℝ) : ∑ q ∈ Icc (-1 : Int) 1, F q = F 1 + F 0 + F (-1) := by
  have : Icc (-1 : Int) 1 = {1, 0, -1} := by decide
  rw [this, sum_insert (by decide), sum_insert (by decide), sum_singleton]; ring

/-- Products of elements summed over the three components. -/
theorem el_gram (s lp l1 l2 m : Int) (hlp : 0 ≤ lp) :
    ∑ q ∈ Icc (-1 : Int) 1, el s q lp l1 m * el s q lp l2 m =
      if l1 = l2 then (2 * l1 + 1) / (2 * lp + 1) * dot3 l1 l1 m lp * cg l1 (-s) 0 lp ^ 2 else 0 := by
  rw [sum_q]
  have : el s 1 lp l1 m * el s 1 lp l2 m + el s 0 lp l1 m * el s 0 lp l2 m + el s (-1) lp l1 m * el s (-1) lp l2 m =
      Real.sqrt ((2 * l1 + 1) / (2 * lp + 1)) * Real.sqrt ((2 * l2 + 1) / (2 * lp + 1)) * dot3 l1 l2 m lp * (cg l1 (-s) 0 lp * cg l2 (-s) 0 lp) := by
    unfold el dot3; ring
  rw [this]
  split
  · rename_i h
    subst h
    by_cases hl : l1 < 0
    · rw [cg_neg (Or.inl hl)]; ring
    · have hl' : (0 : ℝ) ≤ l1 := by exact_mod_cast (show 0 ≤ l1 by omega)
      have hlp' : (0 : ℝ) ≤ lp := by exact_mod_cast hlp
      rw [Real.mul_self_sqrt (by positivity)]; ring
  · rename_i h
    rw [dot3_orth _ _ _ _ hlp h]; ring

theorem el_gram_le (s lp l m : Int) (hlp : 0 ≤ lp) :
    (2 * l + 1) / (2 * lp + 1) * dot3 l l m lp * cg l (-s) 0 lp ^ 2 ≤ if -l ≤ m ∧ m ≤ l then cg l (-s) 0 lp ^ 2 else 0 := by
  split
  · rename_i hm
    by_cases ht : Tri l lp
    · rw [dot3_norm l m lp ht hm.1 hm.2]
      have hl' : (0 : ℝ) ≤ l := by exact_mod_cast ht.1
      have hlp' : (0 : ℝ) ≤ lp := by exact_mod_cast hlp
      have : (2 * l + 1 : ℝ) / (2 * lp + 1) * ((2 * lp + 1) / (2 * l + 1)) = 1 := by field_simp
      rw [this, one_mul]
    · rw [dot3_not_tri l m lp ht, mul_zero, zero_mul]
      positivity
  · rename_i hm
    unfold dot3
    rw [cg_zero hm, cg_zero hm, cg_zero hm]
    simp

theorem cg0_sum_le (a b s l : Int) : ∑ lp ∈ Icc a b, cg l (-s) 0 lp ^ 2 ≤ 1 := by
  by_cases hs : -l ≤ -s ∧ -s ≤ l
  · have h1 : ∑ lp ∈ Icc a b, cg l (-s) 0 lp ^ 2 ≤ ∑ lp ∈ Icc a b ∪ {l - 1, l, l + 1}, cg l (-s) 0 lp ^ 2 :=
      sum_le_sum_of_subset_of_nonneg subset_union_left (fun _ _ _ => sq_nonneg _)
    have h2 : ∑ lp ∈ ({l - 1, l, l + 1} : Finset Int), cg l (-s) 0 lp ^ 2 = ∑ lp ∈ Icc a b ∪ {l - 1, l, l + 1}, cg l (-s) 0 lp ^ 2 := by
      apply sum_subset subset_union_right
      intro lp _ hlp
      simp only [mem_insert, mem_singleton] at hlp
      rw [cg_far (by omega)]; norm_num
    have h3 := cg0_sq_sum l (-s) hs.1 hs.2
    rw [sum_insert (by simp; omega), sum_insert (by simp), sum_singleton] at h2
    linarith
  · rw [sum_eq_zero]
    · norm_num
    · intro lp _
      rw [cg_zero hs]; norm_num

/-- `‖p_z v‖² + ‖p_+ v‖²/2 + ‖p_- v‖²/2 ≤ ‖v‖²` -/
theorem el_bound (s a b : Int) (ha : 0 ≤ a) (v : Fn) :
    ∑ lp ∈ Icc a b, ∑ M ∈ Icc (-lp) lp, ∑ q ∈ Icc (-1 : Int) 1, Complex.normSq (apply a b q (el s q) v lp M) ≤
      ∑ l ∈ Icc a b, ∑ m ∈ Icc (-l) l, Complex.normSq (v l m) := by
  -- the part of the result with angular momentum `lp`
  have hpart : ∀ lp ∈ Icc a b, ∑ M ∈ Icc (-lp) lp, ∑ q ∈ Icc (-1 : Int) 1, Complex.normSq (apply a b q (el s q) v lp M) ≤
      ∑ l ∈ Icc a b, ∑ m ∈ Icc (-l) l, cg l (-s) 0 lp ^ 2 * Complex.normSq (v l m) := by
    intro lp hlp
    rw [mem_Icc] at hlp
    have hlp0 : 0 ≤ lp := by omega
    have h1 : ∑ M ∈ Icc (-lp) lp, ∑ q ∈ Icc (-1 : Int) 1, Complex.normSq (apply a b q (el s q) v lp M) ≤
        ∑ q ∈ Icc (-1 : Int) 1, ∑ m ∈ Icc (-(b + 1)) (b + 1), Complex.normSq (∑ l ∈ Icc a b, (el s q lp l m : ℂ) * v l m) := by
      rw [sum_comm]
      apply sum_le_sum
      intro q hq
      rw [mem_Icc] at hq
      have hshift : ∑ M ∈ Icc (-lp) lp, Complex.normSq (apply a b q (el s q) v lp M) =
          ∑ m ∈ Icc (-lp - q) (lp - q), Complex.normSq (∑ l ∈ Icc a b, (el s q lp l m : ℂ) * v l m) := by
        apply sum_nbij' (fun M : Int => M - q) (fun m : Int => m + q)
        · intro M hM; rw [mem_Icc] at hM ⊢; omega
        · intro m hm; rw [mem_Icc] at hm ⊢; omega
        · intro M _; ring
        · intro m _; ring
        · intro M _; rfl
      rw [hshift]
      apply sum_le_sum_of_subset_of_nonneg
      · intro m hm; rw [mem_Icc] at hm ⊢; omega
      · intro _ _ _; exact Complex.normSq_nonneg _
    refine le_trans h1 ?_
    rw [sum_comm]
    have h2 : ∀ m : Int, ∑ q ∈ Icc (-1 : Int) 1, Complex.normSq (∑ l ∈ Icc a b, (el s q lp l m : ℂ) * v l m) =
        ∑ l ∈ Icc a b, ((2 * l + 1) / (2 * lp + 1) * dot3 l l m lp * cg l (-s) 0 lp ^ 2) * Complex.normSq (v l m) := by
      intro m
      exact gramC (Icc a b) (fun q l => el s q lp l m) (fun l => v l m) _ _ (fun l1 _ l2 _ => el_gram s lp l1 l2 m hlp0)
    simp only [h2]
    rw [sum_comm]
    apply sum_le_sum
    intro l hl
    rw [mem_Icc] at hl
    have h3 : ∑ m ∈ Icc (-l) l, cg l (-s) 0 lp ^ 2 * Complex.normSq (v l m) =
        ∑ m ∈ Icc (-(b + 1)) (b + 1), (if -l ≤ m ∧ m ≤ l then cg l (-s) 0 lp ^ 2 else 0) * Complex.normSq (v l m) := by
      rw [← sum_subset (s₁ := Icc (-l) l) (s₂ := Icc (-(b + 1)) (b + 1))]
      · apply sum_congr rfl
        intro m hm
        rw [mem_Icc] at hm
        rw [if_pos hm]
      · intro m hm; rw [mem_Icc] at hm ⊢; omega
      · intro m _ hm
        rw [mem_Icc] at hm
        rw [if_neg hm, zero_mul]
    rw [h3]
    apply sum_le_sum
    intro m _
    exact mul_le_mul_of_nonneg_right (el_gram_le s lp l m hlp0) (Complex.normSq_nonneg _)
  refine le_trans (sum_le_sum hpart) ?_
  rw [sum_comm]
  apply sum_le_sum
  intro l _
  rw [sum_comm]
  apply sum_le_sum
  intro m _
  rw [← sum_mul]
  have := cg0_sum_le a b s l
  nlinarith [Complex.normSq_nonneg (v l m)]

/-! ### Hermitian conjugates -/

/-- Exchange of the coupled and the resulting angular momentum. -/
theorem cg_rev_up (L m : Int) (hm : -(L - 1) ≤ m ∧ m ≤ L - 1) :
    cg (L - 1) m 1 L * Real.sqrt (2 * L - 1 : ℝ) = Real.sqrt (2 * L + 1 : ℝ) * cg L (m + 1) (-1) (L - 1) ∧
    cg (L - 1) m 0 L * Real.sqrt (2 * L - 1 : ℝ) = -(Real.sqrt (2 * L + 1 : ℝ) * cg L m 0 (L - 1)) ∧
    cg (L - 1) m (-1) L * Real.sqrt (2 * L - 1 : ℝ) = Real.sqrt (2 * L + 1 : ℝ) * cg L (m - 1) 1 (L - 1) := by
  have hL : 1 ≤ L := by omega
  obtain ⟨u1, u0, um⟩ := cg_up L m hL hm.1 hm.2
  have d1 := (cg_down (L - 1) (m + 1) (by omega) (by omega) (by omega)).2.2
  have d0 := (cg_down (L - 1) m (by omega) (by omega) (by omega)).2.1
  have dm := (cg_down (L - 1) (m - 1) (by omega) (by omega) (by omega)).1
  rw [show L - 1 + 1 = L by ring] at d1 d0 dm
  rw [u1, u0, um, d1, d0, dm]
  have hLr : (1 : ℝ) ≤ L := by exact_mod_cast hL
  have p1 : 0 < Real.sqrt (2 * L - 1 : ℝ) := Real.sqrt_pos.mpr (by linarith)
  have p2 : 0 < Real.sqrt (L : ℝ) := Real.sqrt_pos.mpr (by linarith)
  have p4 : 0 < Real.sqrt (2 : ℝ) := Real.sqrt_pos.mpr (by norm_num)
  have p5 : 0 < Real.sqrt (2 * L + 1 : ℝ) := Real.sqrt_pos.mpr (by linarith)
  push_cast
  simp only [show (L - 1 + 1 : ℝ) = L by ring, show (2 * (L - 1) + 3 : ℝ) = 2 * L + 1 by ring,
    show (L - 1 + (m + 1) + 1 : ℝ) = L + m + 1 by ring, show (L - 1 + (m + 1) : ℝ) = L + m by ring,
    show (L - 1 - m + 1 : ℝ) = L - m by ring, show (L - 1 + m + 1 : ℝ) = L + m by ring,
    show (L - 1 - (m - 1) : ℝ) = L - m by ring, show (L - 1 - (m - 1) + 1 : ℝ) = L - m + 1 by ring]
  revert p1 p2 p4 p5
  generalize Real.sqrt (2 * L - 1 : ℝ) = r1
  generalize Real.sqrt (2 * L + 1 : ℝ) = r2
  generalize Real.sqrt (L : ℝ) = r3
  generalize Real.sqrt (2 : ℝ) = r4
  intro p1 p2 p4 p5
  refine ⟨?_, ?_, ?_⟩
  · field_simp
  · field_simp
  · field_simp

theorem cg_rev_same (L m : Int) : cg L m 1 L = -cg L (m + 1) (-1) L := by
  by_cases hm : -L ≤ m ∧ m ≤ L
  · by_cases hm' : -L ≤ m + 1 ∧ m + 1 ≤ L
    · have u := (cg_same L m (by omega) hm.1 hm.2).1
      have d := (cg_same L (m + 1) (by omega) hm'.1 hm'.2).2.2
      rw [u, d]
      push_cast
      rw [show (L - (m + 1) + 1 : ℝ) = L - m by ring, show (L + (m + 1) : ℝ) = L + m + 1 by ring, mul_comm (Real.sqrt (L - m : ℝ))]
    · rw [cg_zero' hm', cg_zero hm']; simp
  · rw [cg_zero hm, cg_zero' (m := m + 1) (by omega)]; simp

/-- `(-1)^q` -/
def pm (q : Int) : ℝ := if q = 0 then 1 else -1

theorem sqrt_ratio (x y u v : ℝ) (hx : 0 < x) (hy : 0 < y) (h : u * √x = v * √y) : Real.sqrt (x / y) * u = v := by
  rw [Real.sqrt_div hx.le]
  have := Real.sqrt_pos.mpr hy
  field_simp
  linarith

/-- The matrix of the operator with `-q` is, up to sign, the transpose of that with `q`. -/
theorem el_herm (s q lp l m : Int) (hq : q = 1 ∨ q = 0 ∨ q = -1) : el s q lp l m = pm q * el s (-q) l lp (m + q) := by
  -- the case lp = l + 1
  have up : ∀ (L q m : Int), (q = 1 ∨ q = 0 ∨ q = -1) → el s q L (L - 1) m = pm q * el s (-q) (L - 1) L (m + q) := by
    intro L q m hq
    by_cases hm : -(L - 1) ≤ m ∧ m ≤ L - 1
    · by_cases hs : -(L - 1) ≤ -s ∧ -s ≤ L - 1
      · have hL : (1 : ℝ) ≤ L := by exact_mod_cast (show 1 ≤ L by omega)
        obtain ⟨r1, r0, rm⟩ := cg_rev_up L m hm
        obtain ⟨_, s0, _⟩ := cg_rev_up L (-s) hs
        have hz : (0 : ℝ) < 2 * L - 1 := by linarith
        have hw : (0 : ℝ) < 2 * L + 1 := by linarith
        have hz' := Real.sqrt_pos.mpr hz
        have hw' := Real.sqrt_pos.mpr hw
        have n1 : (Real.sqrt (2 * L - 1 : ℝ)) ≠ 0 := hz'.ne'
        have n2 : (Real.sqrt (2 * L + 1 : ℝ)) ≠ 0 := hw'.ne'
        have c0 : cg (L - 1) (-s) 0 L = -(Real.sqrt (2 * L + 1 : ℝ) * cg L (-s) 0 (L - 1)) / Real.sqrt (2 * L - 1 : ℝ) := by
          field_simp; linarith
        have e1 : (2 * ((L - 1 : Int) : ℝ) + 1) = 2 * L - 1 := by push_cast; ring
        unfold el
        rw [e1, Real.sqrt_div hz.le, Real.sqrt_div hw.le, c0]
        rcases hq with rfl | rfl | rfl
        · have c1 : cg (L - 1) m 1 L = (Real.sqrt (2 * L + 1 : ℝ) * cg L (m + 1) (-1) (L - 1)) / Real.sqrt (2 * L - 1 : ℝ) := by
            field_simp; linarith
          rw [c1]
          unfold pm; rw [if_neg (by decide)]
          field_simp
        · have c1 : cg (L - 1) m 0 L = -(Real.sqrt (2 * L + 1 : ℝ) * cg L m 0 (L - 1)) / Real.sqrt (2 * L - 1 : ℝ) := by
            field_simp; linarith
          rw [c1, add_zero, neg_zero]
          unfold pm; rw [if_pos rfl]
          field_simp
        · have c1 : cg (L - 1) m (-1) L = (Real.sqrt (2 * L + 1 : ℝ) * cg L (m - 1) 1 (L - 1)) / Real.sqrt (2 * L - 1 : ℝ) := by
            field_simp; linarith
          rw [c1, neg_neg, ← sub_eq_add_neg]
          unfold pm; rw [if_neg (by decide)]
          field_simp
      · unfold el
        rw [cg_zero hs, cg_zero' (l := L) (m := -s) (q := 0) (lp := L - 1) (by omega)]; ring
    · unfold el
      rw [cg_zero hm, cg_zero' (l := L) (m := m + q) (q := -q) (lp := L - 1) (by omega)]; ring
  by_cases h1 : lp < l - 1 ∨ l + 1 < lp
  · rw [el_far h1, el_far (by omega)]; ring
  · have : lp = l + 1 ∨ lp = l ∨ lp = l - 1 := by omega
    rcases this with rfl | rfl | rfl
    · have := up (l + 1) q m hq
      rw [show l + 1 - 1 = l by ring] at this
      exact this
    · unfold el pm
      rcases hq with rfl | rfl | rfl
      · rw [if_neg (by decide), cg_rev_same]; ring
      · rw [if_pos rfl, add_zero, neg_zero]; ring
      · have := cg_rev_same lp (m + -1)
        rw [neg_add_cancel_right] at this
        rw [if_neg (by decide), neg_neg, this]; ring
    · have := up l (-q) (m + q) (by omega)
      rw [neg_neg, add_neg_cancel_right] at this
      rw [this]
      unfold pm
      rcases hq with rfl | rfl | rfl <;> simp

/-! ### The angular momentum operators -/

theorem matEl_jPM (q a b j n l m : Int) :
    matEl (jPM q a b) j n l m = if (a ≤ l ∧ l ≤ b) ∧ j = l ∧ (-l ≤ m ∧ m ≤ l) ∧ (-j ≤ n ∧ n ≤ j) ∧ n = m + q
        then Complex.I * (ladder l (m * q) : ℂ) else 0 := by
  rw [matEl_sum]
  unfold jPM
  rw [sum_flatMap, sum_pyRange]
  have inner : ∀ ell : Int, (((pyRange (-ell) (ell + 1)).filterMap fun m =>
      let mp := m + q
      if mp < -ell ∨ mp > ell then none else some (⟨ell, mp, ell, m, Complex.I * (ladder ell (m * q) : ℂ)⟩ : Entry)).map fun e =>
        if e.j = j ∧ e.n = n ∧ e.l = l ∧ e.m = m then e.val else 0).sum =
      if ell = l ∧ j = l ∧ (-l ≤ m ∧ m ≤ l) ∧ (-j ≤ n ∧ n ≤ j) ∧ n = m + q then Complex.I * (ladder l (m * q) : ℂ) else 0 := by
    intro ell
    rw [sum_filterMap, sum_pyRange]
    simp only
    split
    · rename_i h
      obtain ⟨rfl, rfl, hm, hn, rfl⟩ := h
      rw [sum_eq_single_of_mem m (mem_Icc.mpr hm)]
      · rw [if_neg (by omega)]; simp
      · intro k _ hk
        split
        · rfl
        · simp [hk]
    · rename_i h
      apply sum_eq_zero
      intro k hk
      rw [mem_Icc] at hk
      split
      · rfl
      · rename_i h'
        simp only [Option.map_some, Option.getD_some]
        rw [if_neg]
        rintro ⟨rfl, rfl, rfl, rfl⟩
        exact h ⟨rfl, rfl, hk, by omega, rfl⟩
  simp only [inner]
  split
  · rename_i h
    obtain ⟨hl, hj, hm, hn, hq⟩ := h
    rw [sum_eq_single_of_mem l (mem_Icc.mpr hl)]
    · rw [if_pos ⟨rfl, hj, hm, hn, hq⟩]
    · intro k _ hk
      rw [if_neg (fun h => hk h.1)]
  · rename_i h
    apply sum_eq_zero
    intro k hk
    rw [mem_Icc] at hk
    rw [if_neg]
    rintro ⟨rfl, hj, hm, hn, hq⟩
    exact h ⟨hk, hj, hm, hn, hq⟩

theorem mem_jPM {q a b : Int} {e : Entry} : e ∈ jPM q a b ↔ (a ≤ e.l ∧ e.l ≤ b) ∧ e.j = e.l ∧ (-e.l ≤ e.m ∧ e.m ≤ e.l) ∧
    (-e.j ≤ e.n ∧ e.n ≤ e.j) ∧ e.n = e.m + q ∧ e.val = Complex.I * (ladder e.l (e.m * q) : ℂ) := by
  unfold jPM
  simp only [List.mem_flatMap, List.mem_filterMap, mem_pyRange]
  constructor
  · rintro ⟨ell, hell, m, hm, h⟩
    split at h
    · cases h
    · rename_i hn
      cases h
      simp only
      refine ⟨by omega, trivial, by omega, by omega, trivial, trivial⟩
  · rintro ⟨hl, hj, hm, hn, hq, hv⟩
    refine ⟨e.l, by omega, e.m, by omega, ?_⟩
    rw [if_neg (by omega), ← hq, ← hv]
    obtain ⟨ej, en, el, em, ev⟩ := e
    simp only at hj
    rw [hj]

theorem mem_jZ {a b : Int} {e : Entry} : e ∈ jZ a b ↔ (a ≤ e.l ∧ e.l ≤ b) ∧ e.j = e.l ∧ (-e.l ≤ e.m ∧ e.m ≤ e.l) ∧
    e.n = e.m ∧ e.val = Complex.I * e.m := by
  unfold jZ
  simp only [List.mem_flatMap, List.mem_map, mem_pyRange]
  constructor
  · rintro ⟨ell, hell, m, hm, h⟩
    subst h
    simp only
    refine ⟨by omega, trivial, by omega, trivial, trivial⟩
  · rintro ⟨hl, hj, hm, hn, hv⟩
    refine ⟨e.l, by omega, e.m, by omega, ?_⟩
    obtain ⟨ej, en, el, em, ev⟩ := e
    simp only at hj hn hv
    rw [hj, hn, hv]

theorem matEl_jZ (a b j n l m : Int) :
    matEl (jZ a b) j n l m = if (a ≤ l ∧ l ≤ b) ∧ j = l ∧ (-l ≤ m ∧ m ≤ l) ∧ n = m then Complex.I * m else 0 := by
  rw [matEl_sum]
  unfold jZ
  rw [sum_flatMap, sum_pyRange]
  have inner : ∀ ell : Int, (((pyRange (-ell) (ell + 1)).map fun m => (⟨ell, m, ell, m, Complex.I * m⟩ : Entry)).map fun e =>
        if e.j = j ∧ e.n = n ∧ e.l = l ∧ e.m = m then e.val else 0).sum =
      if ell = l ∧ j = l ∧ (-l ≤ m ∧ m ≤ l) ∧ n = m then Complex.I * (m : ℂ) else 0 := by
    intro ell
    rw [List.map_map, sum_pyRange]
    simp only [Function.comp]
    split
    · rename_i h
      obtain ⟨rfl, rfl, hm, rfl⟩ := h
      rw [sum_eq_single_of_mem n (mem_Icc.mpr hm)]
      · simp
      · intro k _ hk
        simp [hk]
    · rename_i h
      apply sum_eq_zero
      intro k hk
      rw [mem_Icc] at hk
      rw [if_neg]
      rintro ⟨rfl, rfl, rfl, rfl⟩
      exact h ⟨rfl, rfl, hk, rfl⟩
  simp only [inner]
  split
  · rename_i h
    obtain ⟨hl, hj, hm, hn⟩ := h
    rw [sum_eq_single_of_mem l (mem_Icc.mpr hl)]
    · rw [if_pos ⟨rfl, hj, hm, hn⟩]
    · intro k _ hk
      rw [if_neg (fun h => hk h.1)]
  · rename_i h
    apply sum_eq_zero
    intro k hk
    rw [mem_Icc] at hk
    rw [if_neg]
    rintro ⟨rfl, hj, hm, hn⟩
    exact h ⟨hk, hj, hm, hn⟩

/-- An operator that keeps `ell` and adds `q` to `m`. -/
theorem bracket_diag (a b q : Int) (c : Int → Int → ℂ) (hc : ∀ l m, ¬ (-l ≤ m ∧ m ≤ l) → -l ≤ m + q ∧ m + q ≤ l → c l m = 0)
    (M : Int → Int → Int → Int → ℂ) (hM : ∀ j n l m, a ≤ j ∧ j ≤ b → -j ≤ n ∧ n ≤ j → a ≤ l ∧ l ≤ b → -l ≤ m ∧ m ≤ l →
      M j n l m = if j = l ∧ n = m + q then c l m else 0) (f g : Fn) :
    bracket a b f M g = inner a b f (fun l n => c l (n - q) * g l (n - q)) := by
  unfold bracket Verif.Spec.AngMom.inner
  apply sum_congr rfl; intro j hj
  apply sum_congr rfl; intro n hn
  rw [sum_eq_single_of_mem j hj]
  · rw [mem_Icc] at hj hn
    by_cases hm : -j ≤ n - q ∧ n - q ≤ j
    · rw [sum_eq_single_of_mem (n - q) (mem_Icc.mpr hm)]
      · rw [hM j n j (n - q) hj hn hj hm, if_pos ⟨rfl, by ring⟩]; ring
      · intro m hm' hne
        rw [mem_Icc] at hm'
        rw [hM j n j m hj hn hj hm', if_neg (by omega)]; ring
    · simp only [hc j (n - q) hm (by omega), zero_mul, mul_zero]
      apply sum_eq_zero
      intro m hm'
      rw [mem_Icc] at hm'
      rw [hM j n j m hj hn hj hm', if_neg (by omega)]; ring
  · intro l hl hne
    apply sum_eq_zero
    intro m hm'
    rw [mem_Icc] at hj hn hl hm'
    rw [hM j n l m hj hn hl hm', if_neg (fun h => hne h.1.symm)]; ring

theorem bracket_jp (a b : Int) (f g : Fn) : bracket a b f (matEl (jPM 1 a b)) g = Complex.I * inner a b f (raise g) := by
  rw [← inner_smul, bracket_diag a b 1 (fun l m => Complex.I * (ladder l m : ℂ))]
  · unfold Verif.Spec.AngMom.inner
    simp only [raise_eq, mul_assoc]
  · intro l m hm hn
    have : m = -l - 1 := by omega
    subst this
    simp only [ladder_bot]; simp
  · intro j n l m hj hn hl hm
    rw [matEl_jPM, mul_one]
    by_cases h : j = l ∧ n = m + 1
    · rw [if_pos h, if_pos ⟨hl, h.1, hm, hn, h.2⟩]
    · rw [if_neg h, if_neg (fun h' => h ⟨h'.2.1, h'.2.2.2.2⟩)]

theorem bracket_jm (a b : Int) (f g : Fn) : bracket a b f (matEl (jPM (-1) a b)) g = Complex.I * inner a b f (lower g) := by
  rw [← inner_smul, bracket_diag a b (-1) (fun l m => Complex.I * (ladder l (-m) : ℂ))]
  · unfold Verif.Spec.AngMom.inner
    simp only [lower_eq, mul_assoc, ladder_neg, sub_neg_eq_add, add_sub_cancel_right]
  · intro l m hm hn
    have : m = l + 1 := by omega
    subst this
    simp only [ladder_neg, add_sub_cancel_right, ladder_top]; simp
  · intro j n l m hj hn hl hm
    rw [matEl_jPM]
    by_cases h : j = l ∧ n = m + -1
    · rw [if_pos h, if_pos ⟨hl, h.1, hm, hn, h.2⟩]
      rw [mul_neg_one]
    · rw [if_neg h, if_neg (fun h' => h ⟨h'.2.1, h'.2.2.2.2⟩)]

theorem bracket_jz (a b : Int) (f g : Fn) : bracket a b f (matEl (jZ a b)) g = Complex.I * inner a b f (L 2 g) := by
  rw [← inner_smul, bracket_diag a b 0 (fun l m => Complex.I * (m : ℂ))]
  · unfold Verif.Spec.AngMom.inner
    simp only [L_two, zop, mul_assoc, sub_zero]
  · intro l m hm hn
    rw [add_zero] at hn
    exact absurd hn hm
  · intro j n l m hj hn hl hm
    rw [matEl_jZ, add_zero]
    by_cases h : j = l ∧ n = m
    · rw [if_pos h, if_pos ⟨hl, h.1, hm, h.2⟩]
    · rw [if_neg h, if_neg (fun h' => h ⟨h'.2.1, h'.2.2.2⟩)]

end Verif.Flux
