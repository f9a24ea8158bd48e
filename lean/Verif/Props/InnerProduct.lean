import Verif.Model.InnerProduct
import Verif.Props.Flux

/-!
# C45: the inner product of two waveforms
-/

namespace Verif.Props.InnerProduct
open Verif Verif.InnerProduct Verif.Flux Verif.Modes Verif.Slicing Verif.Spec.Flux Verif.Spec.Slicing Verif.Spec.AngMom Verif.ModeCalc
open Verif.Props.Flux ComplexConjugate Finset

/-- A row of data is the list of the modes. -/
theorem row_eq (w : WM ℝ Unit ℂ) (hw : Valid w) (k : Nat) (r : List ℂ) (hr : w.data[k]? = some r) :
    r = (LMRange w.ellMin w.ellMax).map fun p => modesOf w k p.1 p.2 := by
  have hlen : (LMRange w.ellMin w.ellMax).length = r.length := by
    have h1 := Verif.Props.Modes.LM_length w.ellMin w.ellMax hw.min hw.max
    have h2 := hw.cols r (List.mem_of_getElem? hr)
    have h3 := hw.modes
    omega
  apply List.ext_getElem
  · simp [hlen]
  · intro i h1 h2
    simp only [List.getElem_map]
    have hi : i < (LMRange w.ellMin w.ellMax).length := by simpa using h2
    have hidx := Verif.Props.Modes.index_LM w.ellMin w.ellMax hw.min i _ _ (List.getElem?_eq_getElem hi)
    have key : ∀ p : Int × Int, lmIndex p.1 p.2 w.ellMin = i → modesOf w k p.1 p.2 = r[i]'(by simpa using h1) := by
      intro p hp
      unfold modesOf modeAt
      rw [hr, hp]
      simp only [Option.bind_some, Int.toNat_natCast]
      rw [List.getElem?_eq_getElem (by simpa using h1)]
      rfl
    exact (key _ hidx).symm

theorem zip_sum (L : List (Int × Int)) (f g : Int × Int → ℂ) :
    (List.zipWith (fun u v => conj u * v) (L.map f) (L.map g)).sum = (L.map fun p => conj (f p) * g p).sum := by
  induction L with
  | nil => rfl
  | cons x L ih => simp only [List.map_cons, List.zipWith_cons_cons, List.sum_cons, ih]

/-- The integrand is the inner product of the modes at each time. -/
theorem integrand_eq (A B : WM ℝ Unit ℂ) (hA : Valid A) (hB : Valid B) (hmin : B.ellMin = A.ellMin) (hmax : B.ellMax = A.ellMax)
    (ht : A.t.length = B.t.length) : integrand A.data B.data =
      .ok ((List.range A.t.length).map fun k => inner A.ellMin A.ellMax (modesOf A k) (modesOf B k)) := by
  have hn : A.nCols = B.nCols := by
    have h1 := hA.modes; have h2 := hB.modes; rw [hmin, hmax] at h2; omega
  have hl : A.data.map List.length = B.data.map List.length := by
    rw [List.map_congr_left (g := fun _ => A.nCols) hA.cols, List.map_congr_left (g := fun _ => B.nCols) hB.cols, hn]
    simp [hA.rows, hB.rows, ht]
  unfold integrand
  rw [if_neg (not_not.mpr hl)]
  congr 1
  apply List.ext_getElem
  · simp [hA.rows, hB.rows, ht]
  · intro k h1 h2
    have hkA : k < A.data.length := by simp at h1; omega
    have hkB : k < B.data.length := by simp at h1; omega
    simp only [List.getElem_zipWith, List.getElem_map, List.getElem_range]
    rw [row_eq A hA k A.data[k] (List.getElem?_eq_getElem hkA), row_eq B hB k B.data[k] (List.getElem?_eq_getElem hkB), hmin, hmax,
      zip_sum, sum_LMRange A.ellMin A.ellMax (fun l m => conj (modesOf A k l m) * modesOf B k l m)]
    rfl

/-- The quadrature as a sum over the samples. -/
theorem sdi_range (weights : List ℝ → ℝ → ℝ → Nat → ℝ) (n : Nat) (f : Nat → ℂ) (times : List ℝ) (t1 t2 : ℝ) :
    sdi weights ((List.range n).map f) times t1 t2 = ∑ k ∈ range n, (weights times t1 t2 k : ℂ) * f k := by
  unfold sdi
  rw [List.length_map, List.length_range, Finset.sum_range, ← List.sum_ofFn]
  congr 1
  apply List.ext_getElem
  · simp
  · intro k h1 h2
    have hk : k < n := by simpa using h1
    simp [List.getD, hk]

/-- The limits of integration: the given ones, else the first and the last time. -/
def Limits (times : List ℝ) (t1 t2 : Option ℝ) (x1 x2 : ℝ) : Prop :=
  (t1 = some x1 ∨ (t1 = none ∧ times.head? = some x1)) ∧ (t2 = some x2 ∨ (t2 = none ∧ times.getLast? = some x2))

theorem limit_first {times : List ℝ} {g : Option ℝ} {x : ℝ} (h : g = some x ∨ (g = none ∧ times.head? = some x)) :
    limit times g 0 = .ok x := by
  rcases h with rfl | ⟨rfl, h⟩
  · rfl
  · cases times with
    | nil => simp at h
    | cons y ys => simp at h; subst h; rfl

theorem limit_last {times : List ℝ} {g : Option ℝ} {x : ℝ} (h : g = some x ∨ (g = none ∧ times.getLast? = some x)) :
    limit times g (-1) = .ok x := by
  rcases h with rfl | ⟨rfl, h⟩
  · rfl
  · have hpos : 0 < times.length := by
      rw [List.length_pos_iff]; rintro rfl; simp at h
    rw [List.getLast?_eq_getElem?] at h
    have hn : (if (-1 : Int) < 0 then -1 + (times.length : Int) else -1) = ((times.length - 1 : Nat) : Int) := by
      rw [if_pos (by decide)]; omega
    unfold limit pyGet
    simp only [hn]
    rw [if_neg (by omega), Int.toNat_natCast, h]

/-- The modes of both waveforms that `inner_product` uses. -/
theorem clipped_spec (a b : Modes) (ha : Valid a.w) (hb : Valid b.w) (allowLM : Bool)
    (hr : (a.w.ellMin = b.w.ellMin ∧ a.w.ellMax = b.w.ellMax) ∨
      (allowLM = true ∧ 2 ≤ a.w.nCols ∧ 2 ≤ b.w.nCols ∧ max a.w.ellMin b.w.ellMin ≤ min a.w.ellMax b.w.ellMax)) :
    ∃ lm A B, lmClip a b allowLM = .ok lm ∧ clipped a.w lm = .ok A ∧ clipped b.w lm = .ok B ∧ Valid A ∧ Valid B ∧
      A.t = a.w.t ∧ B.t = b.w.t ∧ A.ellMin = max a.w.ellMin b.w.ellMin ∧ A.ellMax = min a.w.ellMax b.w.ellMax ∧
      B.ellMin = A.ellMin ∧ B.ellMax = A.ellMax ∧
      ∀ (k : Nat) (ell m : Int), A.ellMin ≤ ell → ell ≤ A.ellMax → -ell ≤ m → m ≤ ell →
        modesOf A k ell m = modesOf a.w k ell m ∧ modesOf B k ell m = modesOf b.w k ell m := by
  by_cases he : a.w.ellMin = b.w.ellMin ∧ a.w.ellMax = b.w.ellMax
  · refine ⟨none, a.w, b.w, ?_, rfl, rfl, ha, hb, rfl, rfl, by omega, by omega, he.1.symm, he.2.symm, fun _ _ _ _ _ _ _ => ⟨rfl, rfl⟩⟩
    unfold lmClip
    rw [if_neg (by omega)]
  · rcases hr with h | ⟨rfl, na, nb, hle⟩
    · exact absurd h he
    · obtain ⟨A, hA, vA, A1, A2, A3, A4, A5⟩ := clip_spec' a.w ha na _ _ (le_max_left _ _) hle (min_le_left _ _)
      obtain ⟨B, hB, vB, B1, B2, B3, B4, B5⟩ := clip_spec' b.w hb nb _ _ (le_max_right _ _) hle (min_le_right _ _)
      refine ⟨some (max a.w.ellMin b.w.ellMin, min a.w.ellMax b.w.ellMax + 1), A, B, ?_, hA, hB, vA, vB, A5, B5, A1, A2,
        by rw [A1, B1], by rw [A2, B2], ?_⟩
      · unfold lmClip
        rw [if_pos (by omega)]
        simp only [if_true]
        rw [if_neg (by omega)]
      · intro k ell m h1 h2 h3 h4
        rw [A1] at h1; rw [A2] at h2
        exact ⟨A4 k ell m h1 h2 h3 h4, B4 k ell m h1 h2 h3 h4⟩

/-- C45: `a.inner_product(b)` for waveforms of the same spin weight and times is the time integral of the sum of
`conj(a) b` over the modes that both have; these may differ only with `allow_LM_differ`. -/
theorem inner_product_spec (interp : WM ℝ Unit ℂ → List ℝ → WM ℝ Unit ℂ) (weights : List ℝ → ℝ → ℝ → Nat → ℝ) (a b : Modes)
    (ha : Valid a.w) (hb : Valid b.w) (hs : a.spin = b.spin) (ht : a.w.t = b.w.t) (allowLM allowT : Bool)
    (hr : (a.w.ellMin = b.w.ellMin ∧ a.w.ellMax = b.w.ellMax) ∨
      (allowLM = true ∧ 2 ≤ a.w.nCols ∧ 2 ≤ b.w.nCols ∧ max a.w.ellMin b.w.ellMin ≤ min a.w.ellMax b.w.ellMax))
    (t1 t2 : Option ℝ) (x1 x2 : ℝ) (hl : Limits a.w.t t1 t2 x1 x2) :
    innerProduct interp weights a b t1 t2 allowLM allowT = .ok (∑ k ∈ range a.w.t.length, (weights a.w.t x1 x2 k : ℂ) *
      inner (max a.w.ellMin b.w.ellMin) (min a.w.ellMax b.w.ellMax) (modesOf a.w k) (modesOf b.w k)) := by
  obtain ⟨lm, A, B, h1, h2, h3, vA, vB, tA, tB, A1, A2, B1, B2, hm⟩ := clipped_spec a b ha hb allowLM hr
  have htc : clipT a b allowT = .ok none := by
    unfold clipT; rw [if_neg (not_not.mpr ht)]
  unfold innerProduct
  rw [if_neg (not_not.mpr hs)]
  show (do
    let lm ← lmClip a b allowLM
    _) = _
  rw [h1, ok_bind, htc, ok_bind, h2, ok_bind, h3, ok_bind]
  simp only [timed, Option.getD_none]
  rw [limit_first hl.1, ok_bind, limit_last hl.2, ok_bind, integrand_eq A B vA vB B1 B2 (by rw [tA, tB, ht]), ok_bind]
  show Except.ok _ = _
  rw [sdi_range, tA]
  congr 1
  apply sum_congr rfl
  intro k _
  rw [A1, A2]
  congr 1
  apply Verif.Props.ModeCalc.inner_congr
  · intro l m h h'; exact (hm k l m (by rw [A1]; exact h.1) (by rw [A2]; exact h.2) h'.1 h'.2).1
  · intro l m h h'; exact (hm k l m (by rw [A1]; exact h.1) (by rw [A2]; exact h.2) h'.1 h'.2).2

/-- C45: with `allow_times_differ` both are first interpolated to the intersection of their times. -/
theorem inner_product_times (I : List ℝ → (Nat → ℂ) → List ℝ → Nat → ℂ) (interp : WM ℝ Unit ℂ → List ℝ → WM ℝ Unit ℂ)
    (hI : Interpolates I interp) (weights : List ℝ → ℝ → ℝ → Nat → ℝ) (a b : Modes)
    (ha : Valid a.w) (hb : Valid b.w) (hs : a.spin = b.spin) (ht : a.w.t ≠ b.w.t) (ts : List ℝ)
    (hts : Intersection.intersection a.w.t b.w.t none none none = .ok ts) (allowLM : Bool)
    (hr : (a.w.ellMin = b.w.ellMin ∧ a.w.ellMax = b.w.ellMax) ∨
      (allowLM = true ∧ 2 ≤ a.w.nCols ∧ 2 ≤ b.w.nCols ∧ max a.w.ellMin b.w.ellMin ≤ min a.w.ellMax b.w.ellMax))
    (t1 t2 : Option ℝ) (x1 x2 : ℝ) (hl : Limits ts t1 t2 x1 x2) :
    innerProduct interp weights a b t1 t2 allowLM true = .ok (∑ k ∈ range ts.length, (weights ts x1 x2 k : ℂ) *
      inner (max a.w.ellMin b.w.ellMin) (min a.w.ellMax b.w.ellMax)
        (fun ell m => I a.w.t (fun i => modesOf a.w i ell m) ts k) (fun ell m => I b.w.t (fun i => modesOf b.w i ell m) ts k)) := by
  obtain ⟨lm, A, B, h1, h2, h3, vA, vB, tA, tB, A1, A2, B1, B2, hm⟩ := clipped_spec a b ha hb allowLM hr
  have htc : clipT a b true = .ok (some ts) := by
    unfold clipT; rw [if_pos ht, if_pos rfl, hts]; rfl
  unfold innerProduct
  rw [if_neg (not_not.mpr hs)]
  show (do
    let lm ← lmClip a b allowLM
    _) = _
  rw [h1, ok_bind, htc, ok_bind, h2, ok_bind, h3, ok_bind]
  simp only [timed, Option.getD_some]
  rw [limit_first hl.1, ok_bind, limit_last hl.2, ok_bind,
    integrand_eq (interp A ts) (interp B ts) (hI.valid _ _ vA) (hI.valid _ _ vB) (by rw [hI.ellMin, hI.ellMin, B1])
      (by rw [hI.ellMax, hI.ellMax, B2]) (by rw [hI.t, hI.t]), ok_bind]
  show Except.ok _ = _
  rw [sdi_range, hI.t, hI.ellMin, hI.ellMax]
  congr 1
  apply sum_congr rfl
  intro k _
  rw [A1, A2]
  congr 1
  apply Verif.Props.ModeCalc.inner_congr
  · intro l m h h'
    rw [hI.modes, tA]; congr 1; funext i
    exact (hm i l m (by rw [A1]; exact h.1) (by rw [A2]; exact h.2) h'.1 h'.2).1
  · intro l m h h'
    rw [hI.modes, tB]; congr 1; funext i
    exact (hm i l m (by rw [A1]; exact h.1) (by rw [A2]; exact h.2) h'.1 h'.2).2

/-- C45: exchanging the waveforms gives the complex conjugate. -/
theorem inner_product_conj (interp : WM ℝ Unit ℂ → List ℝ → WM ℝ Unit ℂ) (weights : List ℝ → ℝ → ℝ → Nat → ℝ) (a b : Modes)
    (ha : Valid a.w) (hb : Valid b.w) (hs : a.spin = b.spin) (ht : a.w.t = b.w.t) (allowLM allowT : Bool)
    (hr : (a.w.ellMin = b.w.ellMin ∧ a.w.ellMax = b.w.ellMax) ∨
      (allowLM = true ∧ 2 ≤ a.w.nCols ∧ 2 ≤ b.w.nCols ∧ max a.w.ellMin b.w.ellMin ≤ min a.w.ellMax b.w.ellMax))
    (t1 t2 : Option ℝ) (x1 x2 : ℝ) (hl : Limits a.w.t t1 t2 x1 x2) :
    ∃ z, innerProduct interp weights a b t1 t2 allowLM allowT = .ok z ∧ innerProduct interp weights b a t1 t2 allowLM allowT = .ok (conj z) := by
  refine ⟨_, inner_product_spec interp weights a b ha hb hs ht allowLM allowT hr t1 t2 x1 x2 hl, ?_⟩
  rw [inner_product_spec interp weights b a hb ha hs.symm ht.symm allowLM allowT (by
    rcases hr with h | ⟨h1, h2, h3, h4⟩
    · exact Or.inl ⟨h.1.symm, h.2.symm⟩
    · exact Or.inr ⟨h1, h3, h2, by rw [max_comm, min_comm]; exact h4⟩) t1 t2 x1 x2 (by rw [← ht]; exact hl)]
  congr 1
  rw [map_sum, ← ht]
  apply sum_congr rfl
  intro k _
  rw [map_mul, Complex.conj_ofReal, inner_conj, max_comm, min_comm]

/-- `c` is, mode by mode, `x` times `b` plus `y` times `b'`. -/
def IsCombination (x y : ℂ) (b b' c : Modes) : Prop :=
  b'.spin = b.spin ∧ c.spin = b.spin ∧ b'.w.t = b.w.t ∧ c.w.t = b.w.t ∧ b'.w.ellMin = b.w.ellMin ∧ c.w.ellMin = b.w.ellMin ∧
  b'.w.ellMax = b.w.ellMax ∧ c.w.ellMax = b.w.ellMax ∧
  ∀ (k : Nat) (ell m : Int), modesOf c.w k ell m = x * modesOf b.w k ell m + y * modesOf b'.w k ell m

/-- C45: linear in the second argument, ... -/
theorem inner_product_linear (interp : WM ℝ Unit ℂ → List ℝ → WM ℝ Unit ℂ) (weights : List ℝ → ℝ → ℝ → Nat → ℝ) (a b b' c : Modes)
    (ha : Valid a.w) (hb : Valid b.w) (hb' : Valid b'.w) (hc : Valid c.w) (x y : ℂ) (hlin : IsCombination x y b b' c)
    (hs : a.spin = b.spin) (ht : a.w.t = b.w.t) (allowLM allowT : Bool) (hr : a.w.ellMin = b.w.ellMin ∧ a.w.ellMax = b.w.ellMax)
    (t1 t2 : Option ℝ) (x1 x2 : ℝ) (hl : Limits a.w.t t1 t2 x1 x2) :
    ∃ z z', innerProduct interp weights a b t1 t2 allowLM allowT = .ok z ∧ innerProduct interp weights a b' t1 t2 allowLM allowT = .ok z' ∧
      innerProduct interp weights a c t1 t2 allowLM allowT = .ok (x * z + y * z') := by
  obtain ⟨s1, s2, u1, u2, m1, m2, n1, n2, hmode⟩ := hlin
  refine ⟨_, _, inner_product_spec interp weights a b ha hb hs ht allowLM allowT (Or.inl hr) t1 t2 x1 x2 hl,
    inner_product_spec interp weights a b' ha hb' (by rw [hs, s1]) (by rw [ht, u1]) allowLM allowT (Or.inl ⟨by rw [m1]; exact hr.1, by rw [n1]; exact hr.2⟩)
      t1 t2 x1 x2 hl, ?_⟩
  rw [inner_product_spec interp weights a c ha hc (by rw [hs, s2]) (by rw [ht, u2]) allowLM allowT (Or.inl ⟨by rw [m2]; exact hr.1, by rw [n2]; exact hr.2⟩)
      t1 t2 x1 x2 hl]
  congr 1
  rw [mul_sum, mul_sum, ← sum_add_distrib]
  apply sum_congr rfl
  intro k _
  rw [m1, m2, n1, n2]
  have : modesOf c.w k = fun e m => x * modesOf b.w k e m + y * modesOf b'.w k e m := by funext e m; exact hmode k e m
  rw [this, inner_add, inner_smul, inner_smul]; ring

/-- ... and conjugate-linear in the first. -/
theorem inner_product_conj_linear (interp : WM ℝ Unit ℂ → List ℝ → WM ℝ Unit ℂ) (weights : List ℝ → ℝ → ℝ → Nat → ℝ) (a b b' c : Modes)
    (ha : Valid a.w) (hb : Valid b.w) (hb' : Valid b'.w) (hc : Valid c.w) (x y : ℂ) (hlin : IsCombination x y b b' c)
    (hs : b.spin = a.spin) (ht : b.w.t = a.w.t) (allowLM allowT : Bool) (hr : b.w.ellMin = a.w.ellMin ∧ b.w.ellMax = a.w.ellMax)
    (t1 t2 : Option ℝ) (x1 x2 : ℝ) (hl : Limits a.w.t t1 t2 x1 x2) :
    ∃ z z', innerProduct interp weights b a t1 t2 allowLM allowT = .ok z ∧ innerProduct interp weights b' a t1 t2 allowLM allowT = .ok z' ∧
      innerProduct interp weights c a t1 t2 allowLM allowT = .ok (conj x * z + conj y * z') := by
  have hlin' := hlin
  obtain ⟨s1, s2, u1, u2, m1, m2, n1, n2, hmode⟩ := hlin
  obtain ⟨z, z', h1, h2, h3⟩ := inner_product_linear interp weights a b b' c ha hb hb' hc x y hlin' hs.symm ht.symm allowLM allowT
    ⟨hr.1.symm, hr.2.symm⟩ t1 t2 x1 x2 hl
  obtain ⟨w, g1, g1'⟩ := inner_product_conj interp weights a b ha hb hs.symm ht.symm allowLM allowT (Or.inl ⟨hr.1.symm, hr.2.symm⟩) t1 t2 x1 x2 hl
  obtain ⟨w', g2, g2'⟩ := inner_product_conj interp weights a b' ha hb' (by rw [s1, hs]) (by rw [u1, ht]) allowLM allowT
    (Or.inl ⟨by rw [m1, hr.1], by rw [n1, hr.2]⟩) t1 t2 x1 x2 hl
  obtain ⟨v, g3, g3'⟩ := inner_product_conj interp weights a c ha hc (by rw [s2, hs]) (by rw [u2, ht]) allowLM allowT
    (Or.inl ⟨by rw [m2, hr.1], by rw [n2, hr.2]⟩) t1 t2 x1 x2 hl
  refine ⟨_, _, g1', g2', ?_⟩
  rw [g3']
  rw [g1] at h1; rw [g2] at h2; rw [g3] at h3
  cases h1; cases h2; cases h3
  congr 1
  rw [map_add, map_mul, map_mul]

/-- C45: the integrand of a waveform with itself is real and not negative at any time, and zero only where all
modes vanish; with positive weights so is the product. -/
theorem inner_product_positive (interp : WM ℝ Unit ℂ → List ℝ → WM ℝ Unit ℂ) (weights : List ℝ → ℝ → ℝ → Nat → ℝ) (a : Modes)
    (ha : Valid a.w) (allowLM allowT : Bool) (t1 t2 : Option ℝ) (x1 x2 : ℝ) (hl : Limits a.w.t t1 t2 x1 x2)
    (hw : ∀ k, k < a.w.t.length → 0 < weights a.w.t x1 x2 k) :
    ∃ z : ℂ, innerProduct interp weights a a t1 t2 allowLM allowT = .ok z ∧ z.im = 0 ∧ 0 ≤ z.re ∧
      (z = 0 ↔ ∀ (k : Nat) (ell m : Int), k < a.w.t.length → a.w.ellMin ≤ ell → ell ≤ a.w.ellMax → -ell ≤ m → m ≤ ell →
        modesOf a.w k ell m = 0) := by
  have hself : ∀ f : Fn, ∀ x y, inner x y f f = ((∑ ell ∈ Icc x y, ∑ m ∈ Icc (-ell) ell, Complex.normSq (f ell m) : ℝ) : ℂ) := by
    intro f x y
    unfold Verif.Spec.AngMom.inner
    push_cast
    apply sum_congr rfl; intro l _
    apply sum_congr rfl; intro m _
    rw [mul_comm, Complex.mul_conj]
  have hz := inner_product_spec interp weights a a ha ha rfl rfl allowLM allowT (Or.inl ⟨rfl, rfl⟩) t1 t2 x1 x2 hl
  rw [max_self, min_self] at hz
  have hre : (∑ k ∈ range a.w.t.length, (weights a.w.t x1 x2 k : ℂ) * inner a.w.ellMin a.w.ellMax (modesOf a.w k) (modesOf a.w k)) =
      ((∑ k ∈ range a.w.t.length, weights a.w.t x1 x2 k *
        ∑ ell ∈ Icc a.w.ellMin a.w.ellMax, ∑ m ∈ Icc (-ell) ell, Complex.normSq (modesOf a.w k ell m) : ℝ) : ℂ) := by
    rw [Complex.ofReal_sum]
    apply sum_congr rfl; intro k _
    rw [hself, ← Complex.ofReal_mul]
  rw [hre] at hz
  refine ⟨_, hz, Complex.ofReal_im _, ?_, ?_⟩
  · rw [Complex.ofReal_re]
    exact sum_nonneg fun k hk => mul_nonneg (hw k (mem_range.mp hk)).le
      (sum_nonneg fun _ _ => sum_nonneg fun _ _ => Complex.normSq_nonneg _)
  · rw [Complex.ofReal_eq_zero, sum_eq_zero_iff_of_nonneg (fun k hk => mul_nonneg (hw k (mem_range.mp hk)).le
      (sum_nonneg fun _ _ => sum_nonneg fun _ _ => Complex.normSq_nonneg _))]
    constructor
    · intro h k ell m hk h1 h2 h3 h4
      have := h k (mem_range.mpr hk)
      rw [mul_eq_zero, or_iff_right (hw k hk).ne', sum_eq_zero_iff_of_nonneg (fun _ _ => sum_nonneg fun _ _ => Complex.normSq_nonneg _)] at this
      have := this ell (mem_Icc.mpr ⟨h1, h2⟩)
      rw [sum_eq_zero_iff_of_nonneg (fun _ _ => Complex.normSq_nonneg _)] at this
      exact Complex.normSq_eq_zero.mp (this m (mem_Icc.mpr ⟨h3, h4⟩))
    · intro h k hk
      rw [mul_eq_zero]; right
      apply sum_eq_zero; intro ell hell
      apply sum_eq_zero; intro m hm
      rw [mem_Icc] at hell hm
      rw [h k ell m (mem_range.mp hk) hell.1 hell.2 hm.1 hm.2]; simp

/-- C45: the rejections. -/
theorem inner_product_rejects (interp : WM ℝ Unit ℂ → List ℝ → WM ℝ Unit ℂ) (weights : List ℝ → ℝ → ℝ → Nat → ℝ) (a b : Modes)
    (t1 t2 : Option ℝ) (allowLM allowT : Bool)
    (h : a.spin ≠ b.spin ∨
      (allowLM = false ∧ (a.w.ellMin ≠ b.w.ellMin ∨ a.w.ellMax ≠ b.w.ellMax)) ∨
      ((a.w.ellMin ≠ b.w.ellMin ∨ a.w.ellMax ≠ b.w.ellMax) ∧ min a.w.ellMax b.w.ellMax < max a.w.ellMin b.w.ellMin) ∨
      (allowT = false ∧ a.w.t ≠ b.w.t)) :
    innerProduct interp weights a b t1 t2 allowLM allowT = .error .valueError := by
  unfold innerProduct
  by_cases hs : a.spin ≠ b.spin
  · rw [if_pos hs]; rfl
  rw [if_neg hs]
  have hlm : lmClip a b allowLM = .error .valueError ∨ ∃ x, lmClip a b allowLM = .ok x := by
    cases lmClip_cases : lmClip a b allowLM with
    | ok x => exact Or.inr ⟨x, rfl⟩
    | error e =>
      left
      unfold lmClip at lmClip_cases
      split at lmClip_cases
      · split at lmClip_cases
        · simp only at lmClip_cases
          split at lmClip_cases
          · cases lmClip_cases; rfl
          · cases lmClip_cases
        · cases lmClip_cases; rfl
      · cases lmClip_cases
  show (do
    let lm ← lmClip a b allowLM
    _) = _
  rcases hlm with hx | ⟨x, hx⟩
  · rw [hx]; rfl
  · have h' : allowT = false ∧ a.w.t ≠ b.w.t := by
      rcases h with h | h | h | h
      · exact absurd h hs
      · exfalso
        unfold lmClip at hx
        rw [if_pos h.2, if_neg (by simp [h.1])] at hx
        cases hx
      · exfalso
        unfold lmClip at hx
        rw [if_pos h.1] at hx
        split at hx
        · simp only at hx; rw [if_pos (by omega)] at hx; cases hx
        · cases hx
      · exact h
    have ht : clipT a b allowT = .error .valueError := by
      unfold clipT
      rw [if_pos h'.2, if_neg (by simp [h'.1])]
    rw [hx, ok_bind, ht]; rfl

/-- Non-vacuity: the waveform of `Props/Flux`, over its two times, with the trapezoidal rule as the weights. -/
example (interp : WM ℝ Unit ℂ → List ℝ → WM ℝ Unit ℂ) :
    ∃ z : ℂ, innerProduct interp (fun _ _ _ _ => 1 / 2) ⟨-2, sample⟩ ⟨-2, sample⟩ none none false false = .ok z ∧ 0 ≤ z.re := by
  obtain ⟨z, h1, _, h3, _⟩ := inner_product_positive interp (fun _ _ _ _ => 1 / 2) ⟨-2, sample⟩ sample_valid false false none none 0 1
    ⟨Or.inr ⟨rfl, rfl⟩, Or.inr ⟨rfl, rfl⟩⟩ (fun _ _ => by norm_num)
  exact ⟨z, h1, h3⟩

end Verif.Props.InnerProduct
