import Verif.Lemmas.ModeCalc
import Mathlib.Tactic.NormNum
import Mathlib.Algebra.BigOperators.Field

/-!
# C20, C21, C52: angular momentum of modes
-/

namespace Verif.Props.ModeCalc
open Verif.Modes Verif.ModeCalc Verif.Spec.AngMom ComplexConjugate Finset

/-! ### C20 -/

/-- **C20**: `LVector` is `⟨f| L_a |g⟩`. -/
theorem LVector_spec (a b : Int) (ha : 0 ≤ a) (d1 d2 : Row ℂ) :
    LVector d1 d2 (LMRange a b) = (inner a b (fn a d1) (L 0 (fn a d2)), inner a b (fn a d1) (L 1 (fn a d2)),
      inner a b (fn a d1) (L 2 (fn a d2))) := by
  have hp : ∑ ell ∈ Icc a b, ∑ m ∈ Icc (-ell) ell, Lp d1 d2 (lmIndex ell m a) ell m = inner a b (fn a d1) (raise (fn a d2)) :=
    sum_congr rfl (fun ell _ => sum_Lp d1 d2 a ell)
  have hm : ∑ ell ∈ Icc a b, ∑ m ∈ Icc (-ell) ell, Lm d1 d2 (lmIndex ell m a) ell m = inner a b (fn a d1) (lower (fn a d2)) :=
    sum_congr rfl (fun ell _ => sum_Lm d1 d2 a ell)
  unfold LVector
  refine Prod.ext ?_ (Prod.ext ?_ ?_)
  · refine (loop_sum (fun s : ℂ × ℂ × ℂ => s.1) _ (fun i l m => 1 / 2 * (Lp d1 d2 i l m + Lm d1 d2 i l m))
      (fun s p => rfl) a b ha _ rfl).trans ?_
    simp only [inner_L0, ← hp, ← hm, sum_add_distrib, mul_sum, mul_add]
  · refine (loop_sum (fun s : ℂ × ℂ × ℂ => s.2.1) _ (fun i l m => -(1 / 2) * Complex.I * (Lp d1 d2 i l m - Lm d1 d2 i l m))
      (fun s p => rfl) a b ha _ rfl).trans ?_
    simp only [inner_L1, ← hp, ← hm, sum_sub_distrib, mul_sum, mul_sub]
  · refine (loop_sum (fun s : ℂ × ℂ × ℂ => s.2.2) _ (fun i l m => Lz d1 d2 i l m) (fun s p => rfl) a b ha _ rfl).trans ?_
    simp only [L_two]
    exact sum_congr rfl (fun ell _ => sum_Lz d1 d2 a ell)

/-- The component `a` of the result. -/
def comp {K : Type} (v : K × K × K) (c : Fin 3) : K := if c = 0 then v.1 else if c = 1 then v.2.1 else v.2.2

theorem LVector_comp (a b : Int) (ha : 0 ≤ a) (d1 d2 : Row ℂ) (c : Fin 3) :
    comp (LVector d1 d2 (LMRange a b)) c = inner a b (fn a d1) (L c (fn a d2)) := by
  rw [LVector_spec a b ha]
  fin_cases c <;> rfl

/-- It is real for one and the same waveform, and conjugate symmetric in general. -/
theorem LVector_symmetric (a b : Int) (ha : 0 ≤ a) (d1 d2 : Row ℂ) (c : Fin 3) :
    comp (LVector d2 d1 (LMRange a b)) c = conj (comp (LVector d1 d2 (LMRange a b)) c) := by
  rw [LVector_comp a b ha, LVector_comp a b ha, inner_conj, inner_L]

theorem LVector_real (a b : Int) (ha : 0 ≤ a) (d : Row ℂ) (c : Fin 3) :
    (comp (LVector d d (LMRange a b)) c).im = 0 :=
  Complex.conj_eq_iff_im.mp (LVector_symmetric a b ha d d c).symm

/-- The z component is `Σ m |f|²`. -/
theorem LVector_z (a b : Int) (ha : 0 ≤ a) (d : Row ℂ) :
    (LVector d d (LMRange a b)).2.2 =
      ∑ ell ∈ Icc a b, ∑ m ∈ Icc (-ell) ell, (m : ℂ) * (Complex.normSq (d (lmIndex ell m a)) : ℂ) := by
  rw [LVector_spec a b ha]
  simp only [L_two]
  apply sum_congr rfl
  intro ell _
  apply sum_congr rfl
  intro m _
  rw [← Complex.mul_conj]
  unfold zop fn; ring

/-- **C20**: `LdtVector` is the imaginary part of `⟨f| L_a |df/dt⟩`. -/
theorem LdtVector_spec (a b : Int) (ha : 0 ≤ a) (d dd : Row ℂ) (c : Fin 3) :
    comp (LdtVector d dd (LMRange a b)) c = (inner a b (fn a d) (L c (fn a dd))).im := by
  rw [← LVector_comp a b ha]
  have key : LdtVector d dd (LMRange a b) = ((LVector d dd (LMRange a b)).1.im, (LVector d dd (LMRange a b)).2.1.im,
      (LVector d dd (LMRange a b)).2.2.im) := by
    unfold LdtVector LVector
    generalize enumLM (LMRange a b) = l
    have h : ∀ (s : ℝ × ℝ × ℝ) (s' : ℂ × ℂ × ℂ), s = (s'.1.im, s'.2.1.im, s'.2.2.im) →
        l.foldl (fun s p =>
          (s.1 + 1 / 2 * ((Lp d dd p.1 p.2.1 p.2.2).im + (Lm d dd p.1 p.2.1 p.2.2).im),
            s.2.1 + -(1 / 2) * ((Lp d dd p.1 p.2.1 p.2.2).re - (Lm d dd p.1 p.2.1 p.2.2).re),
            s.2.2 + (Lz d dd p.1 p.2.1 p.2.2).im)) s =
        ((l.foldl (fun s p => (s.1 + 1 / 2 * (Lp d dd p.1 p.2.1 p.2.2 + Lm d dd p.1 p.2.1 p.2.2),
          s.2.1 + -(1 / 2) * Complex.I * (Lp d dd p.1 p.2.1 p.2.2 - Lm d dd p.1 p.2.1 p.2.2),
          s.2.2 + Lz d dd p.1 p.2.1 p.2.2)) s').1.im,
        (l.foldl (fun s p => (s.1 + 1 / 2 * (Lp d dd p.1 p.2.1 p.2.2 + Lm d dd p.1 p.2.1 p.2.2),
          s.2.1 + -(1 / 2) * Complex.I * (Lp d dd p.1 p.2.1 p.2.2 - Lm d dd p.1 p.2.1 p.2.2),
          s.2.2 + Lz d dd p.1 p.2.1 p.2.2)) s').2.1.im,
        (l.foldl (fun s p => (s.1 + 1 / 2 * (Lp d dd p.1 p.2.1 p.2.2 + Lm d dd p.1 p.2.1 p.2.2),
          s.2.1 + -(1 / 2) * Complex.I * (Lp d dd p.1 p.2.1 p.2.2 - Lm d dd p.1 p.2.1 p.2.2),
          s.2.2 + Lz d dd p.1 p.2.1 p.2.2)) s').2.2.im) := by
      induction l with
      | nil => intro s s' h; exact h
      | cons p l ih =>
        intro s s' h
        simp only [List.foldl_cons]
        apply ih
        subst h
        refine Prod.ext ?_ (Prod.ext ?_ ?_)
        · simp
        · simp
        · simp
    exact h _ _ (by simp)
  rw [key]
  fin_cases c <;> rfl

/-- Both vanish when the waveform is zero. -/
theorem L_zero_data (a b : Int) (ha : 0 ≤ a) (d : Row ℂ) (hd : ∀ ell m, a ≤ ell → -ell ≤ m → m ≤ ell → d (lmIndex ell m a) = 0)
    (g : Row ℂ) (c : Fin 3) :
    comp (LVector d g (LMRange a b)) c = 0 ∧ comp (LdtVector d g (LMRange a b)) c = 0 := by
  have : inner a b (fn a d) (L c (fn a g)) = 0 := by
    unfold Verif.Spec.AngMom.inner
    apply sum_eq_zero
    intro ell he
    rw [mem_Icc] at he
    apply sum_eq_zero
    intro m hm
    rw [mem_Icc] at hm
    have : fn a d ell m = 0 := hd ell m he.1 hm.1 hm.2
    rw [this]; simp
  rw [LVector_comp a b ha, LdtVector_spec a b ha, this]
  exact ⟨rfl, rfl⟩

/-- The inner product is additive over blocks of `ell`. -/
theorem inner_blocks (a b c : Int) (h : a ≤ b + 1) (h' : b ≤ c) (f g : Fn) :
    inner a c f g = inner a b f g + inner (b + 1) c f g := by
  unfold Verif.Spec.AngMom.inner
  rw [← sum_union]
  · apply sum_congr _ (fun _ _ => rfl)
    ext k; simp only [mem_Icc, mem_union]; omega
  · rw [disjoint_left]
    intro k; simp only [mem_Icc]; omega

theorem inner_congr (a b : Int) (f f' g g' : Fn) (hf : ∀ ell m, a ≤ ell ∧ ell ≤ b → -ell ≤ m ∧ m ≤ ell → f ell m = f' ell m)
    (hg : ∀ ell m, a ≤ ell ∧ ell ≤ b → -ell ≤ m ∧ m ≤ ell → g ell m = g' ell m) : inner a b f g = inner a b f' g' := by
  unfold Verif.Spec.AngMom.inner
  apply sum_congr rfl
  intro ell he
  apply sum_congr rfl
  intro m hm
  rw [hf ell m (mem_Icc.mp he) (mem_Icc.mp hm), hg ell m (mem_Icc.mp he) (mem_Icc.mp hm)]

/-- `L_c` acts inside each `ell` and uses only the modes with `|m| ≤ ell`. -/
theorem L_congr (c : Fin 3) (g g' : Fn) (ell : Int) (h : ∀ m, -ell ≤ m ∧ m ≤ ell → g ell m = g' ell m) (m : Int)
    (hm : -ell ≤ m ∧ m ≤ ell) : L c g ell m = L c g' ell m := by
  have hr : raise g ell m = raise g' ell m := by
    rw [raise_eq, raise_eq]
    by_cases hb : m = -ell
    · subst hb; rw [ladder_bot]; simp
    · rw [h (m - 1) (by omega)]
  have hl : lower g ell m = lower g' ell m := by
    rw [lower_eq, lower_eq]
    by_cases hb : m = ell
    · subst hb; rw [ladder_top]; simp
    · rw [h (m + 1) (by omega)]
  unfold L
  rw [hr, hl, h m hm]

/-- **C20**: both are additive over blocks: if the data with modes `a ≤ ell ≤ c` are split at `b` into two
data sets, the results add up. -/
theorem L_blocks (a b c : Int) (ha : 0 ≤ a) (h : a ≤ b + 1) (h' : b ≤ c) (d d2 g g2 : Row ℂ)
    (hd : ∀ ell m, b + 1 ≤ ell ∧ ell ≤ c → -ell ≤ m ∧ m ≤ ell → d2 (lmIndex ell m (b + 1)) = d (lmIndex ell m a))
    (hg : ∀ ell m, b + 1 ≤ ell ∧ ell ≤ c → -ell ≤ m ∧ m ≤ ell → g2 (lmIndex ell m (b + 1)) = g (lmIndex ell m a)) (k : Fin 3) :
    comp (LVector d g (LMRange a c)) k = comp (LVector d g (LMRange a b)) k + comp (LVector d2 g2 (LMRange (b + 1) c)) k ∧
    comp (LdtVector d g (LMRange a c)) k = comp (LdtVector d g (LMRange a b)) k + comp (LdtVector d2 g2 (LMRange (b + 1) c)) k := by
  have e : inner (b + 1) c (fn (b + 1) d2) (L k (fn (b + 1) g2)) = inner (b + 1) c (fn a d) (L k (fn a g)) := by
    apply inner_congr
    · intro ell m he hm; exact hd ell m he hm
    · intro ell m he hm
      exact L_congr k _ _ ell (fun m hm => hg ell m he hm) m hm
  simp only [LVector_comp a c ha, LVector_comp a b ha, LVector_comp (b + 1) c (by omega), LdtVector_spec a c ha,
    LdtVector_spec a b ha, LdtVector_spec (b + 1) c (by omega), e, inner_blocks a b c h h', Complex.add_im]
  exact ⟨trivial, trivial⟩

/-! ### C21 -/

section
variable (a b : Int) (d1 d2 : Row ℂ)

theorem tot_pp : ∑ ell ∈ Icc a b, ∑ m ∈ Icc (-ell) ell, (prods d1 d2 (lmIndex ell m a) ell m).pp =
    inner a b (fn a d1) (raise (raise (fn a d2))) := sum_congr rfl (fun ell _ => sum_pp d1 d2 a ell)
theorem tot_pm : ∑ ell ∈ Icc a b, ∑ m ∈ Icc (-ell) ell, (prods d1 d2 (lmIndex ell m a) ell m).pm =
    inner a b (fn a d1) (raise (lower (fn a d2))) := sum_congr rfl (fun ell _ => sum_pm d1 d2 a ell)
theorem tot_mp : ∑ ell ∈ Icc a b, ∑ m ∈ Icc (-ell) ell, (prods d1 d2 (lmIndex ell m a) ell m).mp =
    inner a b (fn a d1) (lower (raise (fn a d2))) := sum_congr rfl (fun ell _ => sum_mp d1 d2 a ell)
theorem tot_mm : ∑ ell ∈ Icc a b, ∑ m ∈ Icc (-ell) ell, (prods d1 d2 (lmIndex ell m a) ell m).mm =
    inner a b (fn a d1) (lower (lower (fn a d2))) := sum_congr rfl (fun ell _ => sum_mm d1 d2 a ell)
theorem tot_pz : ∑ ell ∈ Icc a b, ∑ m ∈ Icc (-ell) ell, (prods d1 d2 (lmIndex ell m a) ell m).pz =
    inner a b (fn a d1) (raise (zop (fn a d2))) := sum_congr rfl (fun ell _ => sum_pz d1 d2 a ell)
theorem tot_zp : ∑ ell ∈ Icc a b, ∑ m ∈ Icc (-ell) ell, (prods d1 d2 (lmIndex ell m a) ell m).zp =
    inner a b (fn a d1) (zop (raise (fn a d2))) := sum_congr rfl (fun ell _ => sum_zp d1 d2 a ell)
theorem tot_mz : ∑ ell ∈ Icc a b, ∑ m ∈ Icc (-ell) ell, (prods d1 d2 (lmIndex ell m a) ell m).mz =
    inner a b (fn a d1) (lower (zop (fn a d2))) := sum_congr rfl (fun ell _ => sum_mz d1 d2 a ell)
theorem tot_zm : ∑ ell ∈ Icc a b, ∑ m ∈ Icc (-ell) ell, (prods d1 d2 (lmIndex ell m a) ell m).zm =
    inner a b (fn a d1) (zop (lower (fn a d2))) := sum_congr rfl (fun ell _ => sum_zm d1 d2 a ell)
theorem tot_zz : ∑ ell ∈ Icc a b, ∑ m ∈ Icc (-ell) ell, (prods d1 d2 (lmIndex ell m a) ell m).zz =
    inner a b (fn a d1) (zop (zop (fn a d2))) := sum_congr rfl (fun ell _ => sum_zz d1 d2 a ell)

theorem tot_mul (c : ℂ) (F : Int → Int → ℂ) :
    ∑ ell ∈ Icc a b, ∑ m ∈ Icc (-ell) ell, c * F ell m = c * ∑ ell ∈ Icc a b, ∑ m ∈ Icc (-ell) ell, F ell m := by
  simp only [mul_sum]

/-- What a mode contributes to `L_i L_j`. -/
noncomputable def contrib (i j : Fin 3) (q : Prods) : ℂ :=
  match i, j with
  | 0, 0 => 1 / 4 * (q.pp + q.mm + q.mp + q.pm)
  | 0, 1 => -(1 / 4) * Complex.I * (q.pp - q.mm + q.mp - q.pm)
  | 0, 2 => 1 / 2 * (q.pz + q.mz)
  | 1, 0 => -(1 / 4) * Complex.I * (q.pp - q.mp + q.pm - q.mm)
  | 1, 1 => -(1 / 4) * (q.pp - q.mp - q.pm + q.mm)
  | 1, 2 => -(1 / 2) * Complex.I * (q.pz - q.mz)
  | 2, 0 => 1 / 2 * (q.zp + q.zm)
  | 2, 1 => -(1 / 2) * Complex.I * (q.zp - q.zm)
  | 2, 2 => q.zz

theorem raise_lin (c c' : ℂ) (g h : Fn) : raise (fun e m => c * g e m + c' * h e m) =
    fun e m => c * raise g e m + c' * raise h e m := by
  funext e m; unfold raise; ring
theorem lower_lin (c c' : ℂ) (g h : Fn) : lower (fun e m => c * g e m + c' * h e m) =
    fun e m => c * lower g e m + c' * lower h e m := by
  funext e m; unfold lower; ring
theorem zop_lin (c c' : ℂ) (g h : Fn) : zop (fun e m => c * g e m + c' * h e m) =
    fun e m => c * zop g e m + c' * zop h e m := by
  funext e m; unfold zop; ring

theorem inner_lin (c c' : ℂ) (f g h : Fn) : inner a b f (fun e m => c * g e m + c' * h e m) =
    c * inner a b f g + c' * inner a b f h := by
  rw [inner_add, inner_smul, inner_smul]

theorem tot_contrib (i j : Fin 3) :
    ∑ ell ∈ Icc a b, ∑ m ∈ Icc (-ell) ell, contrib i j (prods d1 d2 (lmIndex ell m a) ell m) =
      inner a b (fn a d1) (L i (L j (fn a d2))) := by
  have hI : Complex.I * Complex.I = -1 := Complex.I_mul_I
  have hI2 : Complex.I ^ 2 = -1 := Complex.I_sq
  fin_cases i <;> fin_cases j <;>
    simp only [contrib, Fin.zero_eta, Fin.mk_one, Fin.reduceFinMk, L_zero, L_one, L_two, raise_lin, lower_lin, zop_lin, inner_lin, tot_mul,
      sum_add_distrib, sum_sub_distrib, tot_pp, tot_pm, tot_mp, tot_mm, tot_pz, tot_zp, tot_mz, tot_zm, tot_zz] <;>
    first
    | rfl
    | ring1
    | (ring_nf; rw [hI2]; ring1)
end

theorem LLMatrix_entry (a b : Int) (ha : 0 ≤ a) (d : Row ℂ) (i j : Fin 3) :
    LLMatrix d (LMRange a b) i j = ((inner a b (fn a d) (L i (L j (fn a d))) + inner a b (fn a d) (L j (L i (fn a d)))) / 2).re := by
  rw [← tot_contrib, ← tot_contrib]
  unfold LLMatrix
  rw [loop_sum (fun A : Mat ℝ => A i j) _ (fun k l m => ((contrib i j (prods d d k l m) + contrib j i (prods d d k l m)) / 2).re)
    ?_ a b ha _ rfl]
  · rw [← sum_add_distrib, ← Complex.reCLM_apply, sum_div, map_sum]
    apply sum_congr rfl
    intro ell _
    rw [← sum_add_distrib, sum_div, map_sum]
    rfl
  · intro A p
    have h2 : ∀ z : ℂ, (z / 2).re = z.re / 2 := by intro z; simp
    fin_cases i <;> fin_cases j <;> simp [Mat.add, contrib, h2]

/-- **C21**: `LLMatrix` is the real part of `⟨f| L_a L_b |f⟩`. -/
theorem LLMatrix_spec (a b : Int) (ha : 0 ≤ a) (d : Row ℂ) (i j : Fin 3) :
    LLMatrix d (LMRange a b) i j = (inner a b (fn a d) (L i (L j (fn a d)))).re := by
  rw [LLMatrix_entry a b ha]
  have : inner a b (fn a d) (L j (L i (fn a d))) = conj (inner a b (fn a d) (L i (L j (fn a d)))) := by
    rw [inner_conj, inner_L, inner_L, ← inner_L, ← inner_L]
  rw [this]
  simp

/-- It is symmetric. -/
theorem LLMatrix_symmetric (a b : Int) (ha : 0 ≤ a) (d : Row ℂ) (i j : Fin 3) :
    LLMatrix d (LMRange a b) i j = LLMatrix d (LMRange a b) j i := by
  rw [LLMatrix_entry a b ha, LLMatrix_entry a b ha, add_comm]


theorem inner_sum (a b : Int) (f : Fn) (v : Fin 3 → ℝ) (g : Fin 3 → Fn) :
    inner a b f (fun e m => ∑ c, (v c : ℂ) * g c e m) = ∑ c, (v c : ℂ) * inner a b f (g c) := by
  simp only [Fin.sum_univ_three, inner_add, inner_smul]

theorem inner_sum_left (a b : Int) (f : Fn) (v : Fin 3 → ℝ) (g : Fin 3 → Fn) :
    inner a b (fun e m => ∑ c, (v c : ℂ) * g c e m) f = ∑ c, (v c : ℂ) * inner a b (g c) f := by
  rw [← inner_conj, inner_sum, map_sum]
  apply sum_congr rfl
  intro c _
  rw [map_mul, Complex.conj_ofReal, inner_conj]

theorem inner_self_nonneg (a b : Int) (f : Fn) : 0 ≤ (inner a b f f).re := by
  unfold Verif.Spec.AngMom.inner
  rw [← Complex.reCLM_apply, map_sum]
  apply sum_nonneg
  intro ell _
  rw [map_sum]
  apply sum_nonneg
  intro m _
  rw [Complex.reCLM_apply, ← Complex.normSq_eq_conj_mul_self, Complex.ofReal_re]
  exact Complex.normSq_nonneg _

theorem quad_form (a b : Int) (ha : 0 ≤ a) (d : Row ℂ) (v w : Fin 3 → ℝ) :
    ∑ i, ∑ j, v i * LLMatrix d (LMRange a b) i j * w j = (inner a b (vL v (fn a d)) (vL w (fn a d))).re := by
  unfold vL
  rw [inner_sum_left, ← Complex.reCLM_apply, map_sum]
  apply sum_congr rfl
  intro i _
  rw [inner_sum, mul_sum, map_sum]
  apply sum_congr rfl
  intro j _
  rw [LLMatrix_spec a b ha, inner_L, Complex.reCLM_apply, ← mul_assoc, ← Complex.ofReal_mul, Complex.re_ofReal_mul]
  ring

/-- It is positive semidefinite: `v·LL·v` is the squared norm of `v·L f`. -/
theorem LLMatrix_psd (a b : Int) (ha : 0 ≤ a) (d : Row ℂ) (v : Fin 3 → ℝ) :
    0 ≤ ∑ i, ∑ j, v i * LLMatrix d (LMRange a b) i j * v j := by
  rw [quad_form a b ha]
  exact inner_self_nonneg a b _

/-- `L_x² + L_y² + L_z² = ell(ell+1)`. -/
theorem L_squared (g : Fn) (ell m : Int) (hm : -ell ≤ m ∧ m ≤ ell) :
    L 0 (L 0 g) ell m + L 1 (L 1 g) ell m + L 2 (L 2 g) ell m = (ell * (ell + 1) : ℂ) * g ell m := by
  have hI2 : Complex.I ^ 2 = -1 := Complex.I_sq
  have h1 : raise (lower g) ell m = (((ell * (ell + 1) - (m - 1) * (m - 1 + 1) : Int) : ℝ) : ℂ) * g ell m := by
    rw [raise_eq, lower_eq, ← mul_assoc, ← Complex.ofReal_mul, ladder_sq ell (m - 1) (by omega)]
    rw [sub_add_cancel]
  have h2 : lower (raise g) ell m = (((ell * (ell + 1) - m * (m + 1) : Int) : ℝ) : ℂ) * g ell m := by
    rw [lower_eq, raise_eq, add_sub_cancel_right, ← mul_assoc, ← Complex.ofReal_mul, ladder_sq ell m (by omega)]
  have h3 : L 0 (L 0 g) ell m + L 1 (L 1 g) ell m = 1 / 2 * (raise (lower g) ell m + lower (raise g) ell m) := by
    rw [L_zero, L_zero, L_one, L_one]
    simp only [raise_lin, lower_lin]
    ring_nf
    rw [hI2]
    ring
  rw [h3, h1, h2, L_two, L_two]
  unfold zop
  push_cast
  ring

/-- Its trace is `Σ ell(ell+1) |f|²`. -/
theorem LLMatrix_trace (a b : Int) (ha : 0 ≤ a) (d : Row ℂ) :
    ∑ i, LLMatrix d (LMRange a b) i i =
      ∑ ell ∈ Icc a b, ∑ m ∈ Icc (-ell) ell, (ell * (ell + 1) : ℝ) * Complex.normSq (d (lmIndex ell m a)) := by
  rw [Fin.sum_univ_three, LLMatrix_spec a b ha, LLMatrix_spec a b ha, LLMatrix_spec a b ha, ← Complex.add_re, ← Complex.add_re]
  have : inner a b (fn a d) (L 0 (L 0 (fn a d))) + inner a b (fn a d) (L 1 (L 1 (fn a d))) + inner a b (fn a d) (L 2 (L 2 (fn a d))) =
      ((∑ ell ∈ Icc a b, ∑ m ∈ Icc (-ell) ell, (ell * (ell + 1) : ℝ) * Complex.normSq (d (lmIndex ell m a)) : ℝ) : ℂ) := by
    rw [← inner_add, ← inner_add]
    unfold Verif.Spec.AngMom.inner
    push_cast
    apply sum_congr rfl
    intro ell _
    apply sum_congr rfl
    intro m hm
    rw [L_squared _ ell m (mem_Icc.mp hm), ← Complex.mul_conj]
    unfold fn; ring
  rw [this, Complex.ofReal_re]

/-- **C21** (partial): `LLComparisonMatrix` is `⟨f| L_a L_b |g⟩` in all entries but `[1, 1]` and `[1, 2]`.
Missing: those two, for which it is false (`LLComparison_wrong`). -/
theorem LLComparison_partial (a b : Int) (ha : 0 ≤ a) (d1 d2 : Row ℂ) (i j : Fin 3) (h : ¬ (i = 1 ∧ (j = 1 ∨ j = 2))) :
    LLComparison d1 d2 (LMRange a b) i j = inner a b (fn a d1) (L i (L j (fn a d2))) := by
  rw [← tot_contrib]
  unfold LLComparison
  refine (loop_sum (fun A : Mat ℂ => A i j) _ (fun k l m => contrib i j (prods d1 d2 k l m)) ?_ a b ha _ rfl)
  intro A p
  fin_cases i <;> fin_cases j <;> first | (simp [Mat.add, contrib]; done) | (exfalso; revert h; decide)

/-- What the code computes for the other two: `[1, 2]` is always zero, and its value is added to `[1, 1]`. -/
theorem LLComparison_wrong (a b : Int) (ha : 0 ≤ a) (d1 d2 : Row ℂ) :
    LLComparison d1 d2 (LMRange a b) 1 2 = 0 ∧
    LLComparison d1 d2 (LMRange a b) 1 1 =
      inner a b (fn a d1) (L 1 (L 1 (fn a d2))) + inner a b (fn a d1) (L 1 (L 2 (fn a d2))) := by
  constructor
  · unfold LLComparison
    refine (loop_sum (fun A : Mat ℂ => A 1 2) _ (fun k l m => 0) ?_ a b ha _ rfl).trans (by simp)
    intro A p
    simp [Mat.add]
  · rw [← tot_contrib, ← tot_contrib, ← sum_add_distrib]
    simp only [← sum_add_distrib]
    unfold LLComparison
    refine (loop_sum (fun A : Mat ℂ => A 1 1) _ (fun k l m => contrib 1 1 (prods d1 d2 k l m) + contrib 1 2 (prods d1 d2 k l m))
      ?_ a b ha _ rfl)
    intro A p
    simp [Mat.add, contrib, add_assoc]

/-- A waveform for which this matters: modes `f(1, 0) = 1`, `f(1, 1) = i`.  The real part of
`LLComparisonMatrix(W, W)[1, 2]` is 0, that of `LLMatrix(W)[1, 2]` is `-sqrt(2)/2`. -/
theorem LLComparison_differs :
    ∃ d : Row ℂ, (LLComparison d d (LMRange 1 1) 1 2).re ≠ LLMatrix d (LMRange 1 1) 1 2 := by
  refine ⟨fun k => if k = 1 then 1 else if k = 2 then Complex.I else 0, ?_⟩
  rw [(LLComparison_wrong 1 1 (by norm_num) _ _).1, LLMatrix_spec 1 1 (by norm_num)]
  have hs : Icc (-1 : Int) 1 = {-1, 0, 1} := by decide
  have h2 : ladder 1 0 = Real.sqrt 2 := by unfold ladder; norm_num
  have hval : ∀ m : Int, fn 1 (fun k => if k = 1 then 1 else if k = 2 then Complex.I else 0) 1 m =
      if m = 0 then 1 else if m = 1 then Complex.I else 0 := by
    intro m
    unfold fn lmIndex
    by_cases h0 : m = 0
    · subst h0; norm_num
    · by_cases h1 : m = 1
      · subst h1; norm_num
      · rw [if_neg h0, if_neg h1]
        exact (if_neg (by omega)).trans (if_neg (by omega))
  have : inner 1 1 (fn 1 fun k => if k = 1 then 1 else if k = 2 then Complex.I else 0)
      (L 1 (L 2 (fn 1 fun k => if k = 1 then 1 else if k = 2 then Complex.I else 0))) = ((-(Real.sqrt 2 / 2) : ℝ) : ℂ) := by
    rw [inner_L1, inner_raise, inner_lower, L_two]
    unfold Verif.Spec.AngMom.inner
    rw [Icc_self, sum_singleton, sum_singleton, hs]
    rw [sum_insert (by decide), sum_insert (by decide), sum_singleton, sum_insert (by decide), sum_insert (by decide),
      sum_singleton]
    simp only [lower_eq, raise_eq, zop, hval]
    norm_num [h2]
    ring_nf
    rw [Complex.I_sq]; ring
  rw [this, Complex.ofReal_re, Complex.zero_re]
  have : 0 < Real.sqrt 2 := Real.sqrt_pos.mpr (by norm_num)
  intro h; linarith

/-! ### C52: the angular velocity -/


theorem inner_add_left (a b : Int) (f g h : Fn) :
    inner a b (fun e m => g e m + h e m) f = inner a b g f + inner a b h f := by
  rw [← inner_conj, inner_add, map_add, inner_conj, inner_conj]

theorem inner_smul_left (a b : Int) (c : ℂ) (f g : Fn) : inner a b (fun e m => c * g e m) f = conj c * inner a b g f := by
  rw [← inner_conj, inner_smul, map_mul, inner_conj]

theorem change_eq (a b : Int) (ha : 0 ≤ a) (d dd : Row ℂ) (w : Fin 3 → ℝ) :
    change a b (fn a d) (fn a dd) w = (inner a b (fn a dd) (fn a dd)).re +
      2 * ∑ c, w c * comp (LdtVector d dd (LMRange a b)) c + ∑ i, ∑ j, w i * LLMatrix d (LMRange a b) i j * w j := by
  have hcross : ∀ v : Fin 3 → ℝ, inner a b (vL v (fn a d)) (fn a dd) = ∑ c, (v c : ℂ) * inner a b (fn a d) (L c (fn a dd)) := by
    intro v
    unfold vL
    rw [inner_sum_left]
    apply sum_congr rfl
    intro c _
    rw [inner_L]
  rw [quad_form a b ha]
  unfold change
  rw [inner_add, inner_add_left, inner_add_left, inner_smul, inner_smul_left, inner_smul, inner_smul_left]
  rw [show inner a b (fn a dd) (vL w (fn a d)) = conj (inner a b (vL w (fn a d)) (fn a dd)) from (inner_conj _ _ _ _).symm]
  have hl : ∑ c, w c * comp (LdtVector d dd (LMRange a b)) c = (inner a b (vL w (fn a d)) (fn a dd)).im := by
    rw [hcross, ← Complex.imCLM_apply, map_sum]
    apply sum_congr rfl
    intro c _
    rw [LdtVector_spec a b ha, Complex.imCLM_apply, Complex.im_ofReal_mul]
  rw [hl]
  generalize inner a b (vL w (fn a d)) (fn a dd) = z
  generalize inner a b (vL w (fn a d)) (vL w (fn a d)) = y
  simp only [Complex.add_re, Complex.mul_re, Complex.I_re, Complex.I_im, Complex.conj_re, Complex.conj_im, Complex.conj_I,
    Complex.neg_re, Complex.neg_im, Complex.mul_im]
  ring

/-- **C52**: the result of `angular_velocity` minimises the rate of change of the modes over all angular
velocities, whenever `solve` returned a solution of the linear system. -/
theorem angular_velocity_minimises (a b : Int) (ha : 0 ≤ a) (d dd : Row ℂ) (solve : Mat ℝ → (Fin 3 → ℝ) → Py (Fin 3 → ℝ))
    (hsolve : ∀ A l x, solve A l = .ok x → ∀ i, ∑ j, A i j * x j = l i) (w : Fin 3 → ℝ)
    (h : angularVelocity solve d dd (LMRange a b) = .ok w) (w' : Fin 3 → ℝ) :
    change a b (fn a d) (fn a dd) w ≤ change a b (fn a d) (fn a dd) w' := by
  unfold angularVelocity at h
  simp only at h
  cases hs : solve (LLMatrix d (LMRange a b)) (fun c => if c = 0 then (LdtVector d dd (LMRange a b)).1 else
      if c = 1 then (LdtVector d dd (LMRange a b)).2.1 else (LdtVector d dd (LMRange a b)).2.2) with
  | error e => rw [hs] at h; cases h
  | ok x =>
    rw [hs, ok_bind] at h
    have hw : (fun c => -x c) = w := by simpa [pure_eq_ok] using h
    have hx := hsolve _ _ _ hs
    have hl : ∀ i, comp (LdtVector d dd (LMRange a b)) i = -∑ j, LLMatrix d (LMRange a b) i j * w j := by
      intro i
      have := hx i
      rw [← hw]
      simp only [mul_neg, sum_neg_distrib, neg_neg]
      rw [this]; rfl
    rw [change_eq a b ha, change_eq a b ha]
    have hpsd := LLMatrix_psd a b ha d (fun c => w' c - w c)
    have h01 := LLMatrix_symmetric a b ha d 1 0
    have h02 := LLMatrix_symmetric a b ha d 2 0
    have h12 := LLMatrix_symmetric a b ha d 2 1
    simp only [Fin.sum_univ_three, hl] at hpsd ⊢
    rw [h01, h02, h12] at hpsd ⊢
    linarith

/-- It is the only minimiser when no rotation leaves the modes unchanged. -/
theorem angular_velocity_unique (a b : Int) (ha : 0 ≤ a) (d dd : Row ℂ) (solve : Mat ℝ → (Fin 3 → ℝ) → Py (Fin 3 → ℝ))
    (hsolve : ∀ A l x, solve A l = .ok x → ∀ i, ∑ j, A i j * x j = l i) (w : Fin 3 → ℝ)
    (h : angularVelocity solve d dd (LMRange a b) = .ok w) (w' : Fin 3 → ℝ)
    (hpd : ∀ v : Fin 3 → ℝ, v ≠ 0 → (inner a b (vL v (fn a d)) (vL v (fn a d))).re ≠ 0)
    (h' : change a b (fn a d) (fn a dd) w' = change a b (fn a d) (fn a dd) w) : w' = w := by
  by_contra hne
  have hmid := angular_velocity_minimises a b ha d dd solve hsolve w h (fun c => (w c + w' c) / 2)
  have hv := hpd (fun c => w' c - w c) (by
    intro h0; apply hne; funext c; have := congrFun h0 c; simp at this; linarith)
  have hnn := inner_self_nonneg a b (vL (fun c => w' c - w c) (fn a d))
  rw [← quad_form a b ha] at hv hnn
  have hpos := lt_of_le_of_ne hnn (Ne.symm hv)
  rw [change_eq a b ha, change_eq a b ha] at hmid h'
  simp only [Fin.sum_univ_three] at hpos hmid h'
  linarith

/-- A waveform whose modes rotate rigidly with angular velocity `v` has that angular velocity. -/
theorem angular_velocity_recovers (a b : Int) (ha : 0 ≤ a) (d dd : Row ℂ) (solve : Mat ℝ → (Fin 3 → ℝ) → Py (Fin 3 → ℝ))
    (hsolve : ∀ A l x, solve A l = .ok x → ∀ i, ∑ j, A i j * x j = l i) (v w : Fin 3 → ℝ)
    (hdd : ∀ ell m, a ≤ ell → ell ≤ b → -ell ≤ m → m ≤ ell → dd (lmIndex ell m a) = -Complex.I * vL v (fn a d) ell m)
    (h : angularVelocity solve d dd (LMRange a b) = .ok w)
    (hpd : ∀ v : Fin 3 → ℝ, v ≠ 0 → (inner a b (vL v (fn a d)) (vL v (fn a d))).re ≠ 0) : w = v := by
  have h0 : change a b (fn a d) (fn a dd) v = 0 := by
    unfold change Verif.Spec.AngMom.inner
    rw [sum_eq_zero, Complex.zero_re]
    intro ell hell
    apply sum_eq_zero
    intro m hm
    rw [mem_Icc] at hell hm
    have : fn a dd ell m = -Complex.I * vL v (fn a d) ell m := hdd ell m hell.1 hell.2 hm.1 hm.2
    simp only [this]
    ring
  have h1 := angular_velocity_minimises a b ha d dd solve hsolve w h v
  have h2 : 0 ≤ change a b (fn a d) (fn a dd) w := inner_self_nonneg a b _
  exact (angular_velocity_unique a b ha d dd solve hsolve w h v hpd (by linarith)).symm

/-- A routine that solves every solvable system. -/
noncomputable def exSolve (A : Mat ℝ) (l : Fin 3 → ℝ) : Py (Fin 3 → ℝ) :=
  open Classical in if h : ∃ x : Fin 3 → ℝ, ∀ i, ∑ j, A i j * x j = l i then .ok h.choose else .error .other

/-- The waveform with the single mode `(1, 1)`. -/
noncomputable def exRow : Row ℂ := fun k => if k = 2 then 1 else 0

/-- Rotating rigidly with angular velocity `(1, 2, 3)`. -/
noncomputable def exV : Fin 3 → ℝ := ![1, 2, 3]
noncomputable def exDot : Row ℂ := fun k => -Complex.I * vL exV (fn 1 exRow) 1 (k - 1)

/-- The hypotheses of the theorems above are met by that waveform, and `angular_velocity` returns `(1, 2, 3)`. -/
theorem ex_facts : (∀ A l x, exSolve A l = .ok x → ∀ i, ∑ j, A i j * x j = l i) ∧
    (∀ v : Fin 3 → ℝ, v ≠ 0 → (inner 1 1 (vL v (fn 1 exRow)) (vL v (fn 1 exRow))).re ≠ 0) ∧
    angularVelocity exSolve exRow exDot (LMRange 1 1) = .ok exV := by
  have hs : ∀ A l x, exSolve A l = .ok x → ∀ i, ∑ j, A i j * x j = l i := by
    intro A l x h
    unfold exSolve at h
    split at h
    · rename_i hex
      cases h
      exact hex.choose_spec
    · cases h
  have hval : ∀ m : Int, fn 1 exRow 1 m = if m = 1 then 1 else 0 := by
    intro m
    unfold fn lmIndex exRow
    by_cases h1 : m = 1
    · subst h1; norm_num
    · rw [if_neg h1]
      exact if_neg (by omega)
  have hIcc : Icc (-1 : Int) 1 = {-1, 0, 1} := by decide
  have h2 : ladder 1 0 = Real.sqrt 2 := by unfold ladder; norm_num
  have hpd : ∀ v : Fin 3 → ℝ, v ≠ 0 → (inner 1 1 (vL v (fn 1 exRow)) (vL v (fn 1 exRow))).re ≠ 0 := by
    intro v hv h0
    apply hv
    have e1 : vL v (fn 1 exRow) 1 1 = (v 2 : ℂ) := by
      unfold vL
      rw [Fin.sum_univ_three, L_zero, L_one, L_two]
      simp only [lower_eq, raise_eq, zop, hval]
      norm_num
    have e0 : vL v (fn 1 exRow) 1 0 = (Real.sqrt 2 / 2 : ℝ) * (v 0 + Complex.I * v 1) := by
      unfold vL
      rw [Fin.sum_univ_three, L_zero, L_one, L_two]
      simp only [lower_eq, raise_eq, zop, hval]
      norm_num [h2]
      ring
    have em : vL v (fn 1 exRow) 1 (-1) = 0 := by
      unfold vL
      rw [Fin.sum_univ_three, L_zero, L_one, L_two]
      simp only [lower_eq, raise_eq, zop, hval]
      norm_num
    unfold Verif.Spec.AngMom.inner at h0
    rw [Icc_self, sum_singleton, hIcc, sum_insert (by decide), sum_insert (by decide), sum_singleton, em, e0, e1] at h0
    simp only [Complex.add_re, Complex.mul_re, map_mul, map_add, Complex.conj_ofReal, Complex.conj_I, Complex.mul_im,
      Complex.add_im, Complex.ofReal_re, Complex.ofReal_im, Complex.neg_re, Complex.neg_im, Complex.I_re, Complex.I_im, map_zero, Complex.zero_re, Complex.zero_im] at h0
    have hsq : Real.sqrt 2 * Real.sqrt 2 = 2 := Real.mul_self_sqrt (by norm_num)
    have : (v 0 ^ 2 + v 1 ^ 2) / 2 + v 2 ^ 2 = 0 := by
      have : (v 0 ^ 2 + v 1 ^ 2) / 2 + v 2 ^ 2 = (Real.sqrt 2 * Real.sqrt 2) / 4 * (v 0 ^ 2 + v 1 ^ 2) + v 2 ^ 2 := by rw [hsq]; ring
      rw [this, ← h0]; ring
    funext c
    have z0 : v 0 ^ 2 = 0 := by nlinarith [sq_nonneg (v 0), sq_nonneg (v 1), sq_nonneg (v 2)]
    have z1 : v 1 ^ 2 = 0 := by nlinarith [sq_nonneg (v 0), sq_nonneg (v 1), sq_nonneg (v 2)]
    have z2 : v 2 ^ 2 = 0 := by nlinarith [sq_nonneg (v 0), sq_nonneg (v 1), sq_nonneg (v 2)]
    fin_cases c
    · exact pow_eq_zero_iff (by norm_num) |>.mp z0
    · exact pow_eq_zero_iff (by norm_num) |>.mp z1
    · exact pow_eq_zero_iff (by norm_num) |>.mp z2
  have hdot : ∀ ell m : Int, 1 ≤ ell → ell ≤ 1 → -ell ≤ m → m ≤ ell →
      exDot (lmIndex ell m 1) = -Complex.I * vL exV (fn 1 exRow) ell m := by
    intro ell m h1 h1' _ _
    obtain rfl : ell = 1 := by omega
    unfold exDot lmIndex
    rw [show (1 * (1 + 1) - 1 ^ 2 + m - 1 : Int) = m by ring]
  refine ⟨hs, hpd, ?_⟩
  have hl : ∀ i, ∑ j, LLMatrix exRow (LMRange 1 1) i j * (-exV j) = comp (LdtVector exRow exDot (LMRange 1 1)) i := by
    intro i
    rw [LdtVector_spec 1 1 (by norm_num)]
    have : inner 1 1 (fn 1 exRow) (L i (fn 1 exDot)) = -Complex.I * ∑ j, (exV j : ℂ) * inner 1 1 (fn 1 exRow) (L i (L j (fn 1 exRow))) := by
      rw [inner_L 1 1 i (fn 1 exRow) (fn 1 exDot)]
      have e : inner 1 1 (L i (fn 1 exRow)) (fn 1 exDot) = inner 1 1 (L i (fn 1 exRow)) (fun e m => -Complex.I * vL exV (fn 1 exRow) e m) := by
        unfold Verif.Spec.AngMom.inner
        apply sum_congr rfl
        intro ell hell
        apply sum_congr rfl
        intro m hm
        rw [mem_Icc] at hell hm
        have : fn 1 exDot ell m = -Complex.I * vL exV (fn 1 exRow) ell m := hdot ell m hell.1 hell.2 hm.1 hm.2
        rw [this]
      rw [e, inner_smul]
      unfold vL
      rw [inner_sum]
      simp only [inner_L]
    rw [this]
    simp only [LLMatrix_spec 1 1 (show (0 : Int) ≤ 1 by norm_num), Fin.sum_univ_three]
    simp only [Complex.add_im, Complex.mul_im, Complex.neg_im, Complex.neg_re, Complex.I_re, Complex.I_im,
      Complex.add_re, Complex.mul_re, Complex.ofReal_re, Complex.ofReal_im]
    ring
  have hex : ∃ x : Fin 3 → ℝ, ∀ i, ∑ j, LLMatrix exRow (LMRange 1 1) i j * x j =
        (if i = 0 then (LdtVector exRow exDot (LMRange 1 1)).1 else
          if i = 1 then (LdtVector exRow exDot (LMRange 1 1)).2.1 else (LdtVector exRow exDot (LMRange 1 1)).2.2) :=
    ⟨fun j => -exV j, fun i => hl i⟩
  obtain ⟨w, hw⟩ : ∃ w, angularVelocity exSolve exRow exDot (LMRange 1 1) = .ok w := by
    unfold angularVelocity exSolve
    simp only
    rw [dif_pos hex]
    exact ⟨_, rfl⟩
  rw [hw, angular_velocity_recovers 1 1 (by norm_num) exRow exDot exSolve hs exV w hdot hw hpd]

end Verif.Props.ModeCalc
