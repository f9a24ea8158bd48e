import Verif.Model.ConjPairs
import Verif.Lemmas.Modes
import Mathlib.Tactic.FieldSimp
import Mathlib.Tactic.LinearCombination
import Mathlib.Algebra.BigOperators.Group.List.Basic

namespace Verif.ConjPairs
open Verif.Modes ComplexConjugate

variable {K : Type}

/-- A step that rewrites the two columns of `(ell, m)` and `(ell, -m)`. -/
def pairStep (f : K → K → K × K) (a : Int) (row : Row K) (p : Int × Int) : Row K :=
  let x := row (lmIndex p.1 p.2 a)
  let y := row (lmIndex p.1 (-p.2) a)
  (row.set (lmIndex p.1 p.2 a) (f x y).1).set (lmIndex p.1 (-p.2) a) (f x y).2

/-- The labels visited by the double loop. -/
def labels (a b : Int) : List (Int × Int) :=
  (pyRange a (b + 1)).flatMap fun ell => (pyRange 1 (ell + 1)).map fun m => (ell, m)

theorem mem_labels {a b ell m : Int} :
    (ell, m) ∈ labels a b ↔ (a ≤ ell ∧ ell ≤ b) ∧ (1 ≤ m ∧ m ≤ ell) := by
  unfold labels
  simp only [List.mem_flatMap, List.mem_map, mem_pyRange, Prod.mk.injEq]
  constructor
  · rintro ⟨e, h1, m', h2, rfl, rfl⟩; omega
  · rintro ⟨h1, h2⟩; exact ⟨ell, by omega, m, by omega, rfl, rfl⟩

theorem labels_nodup (a b : Int) : (labels a b).Nodup := by
  unfold labels
  rw [List.nodup_flatMap]
  constructor
  · intro ell _
    exact (pyRange_nodup _ _).map (fun x y h => by simpa using h)
  · exact (pyRange_nodup _ _).imp (by
      intro x y hxy p h1 h2
      simp only [List.mem_map] at h1 h2
      obtain ⟨m, _, rfl⟩ := h1
      obtain ⟨m', _, h⟩ := h2
      simp at h
      exact hxy h.1.symm)

def Good (L : List (Int × Int)) : Prop := ∀ p ∈ L, 1 ≤ p.2 ∧ p.2 ≤ p.1

theorem fold_spec (f : K → K → K × K) (a : Int) (L : List (Int × Int)) (hn : L.Nodup) (hg : Good L)
    (row : Row K) :
    (∀ p ∈ L, L.foldl (pairStep f a) row (lmIndex p.1 p.2 a) =
        (f (row (lmIndex p.1 p.2 a)) (row (lmIndex p.1 (-p.2) a))).1 ∧
      L.foldl (pairStep f a) row (lmIndex p.1 (-p.2) a) =
        (f (row (lmIndex p.1 p.2 a)) (row (lmIndex p.1 (-p.2) a))).2) ∧
    ∀ i, (∀ p ∈ L, i ≠ lmIndex p.1 p.2 a ∧ i ≠ lmIndex p.1 (-p.2) a) →
      L.foldl (pairStep f a) row i = row i := by
  induction L generalizing row with
  | nil => simp
  | cons q L ih =>
    obtain ⟨hq, hn'⟩ := List.nodup_cons.mp hn
    have hgL : Good L := fun p hp => hg p (by simp [hp])
    have hgq := hg q (by simp)
    obtain ⟨ih1, ih2⟩ := ih hn' hgL (pairStep f a row q)
    have disj : ∀ p ∈ L, ∀ s s' : Int, (s = 1 ∨ s = -1) → (s' = 1 ∨ s' = -1) →
        lmIndex p.1 (s * p.2) a ≠ lmIndex q.1 (s' * q.2) a := by
      intro p hp s s' hs hs' h
      have hgp := hgL p hp
      have := lmIndex_inj (a := a) (by rcases hs with rfl | rfl <;> constructor <;> omega)
        (by rcases hs' with rfl | rfl <;> constructor <;> omega) h
      apply hq
      have e : p = q := by
        apply Prod.ext this.1
        rcases hs with rfl | rfl <;> rcases hs' with rfl | rfl <;> omega
      rw [← e]; exact hp
    have hne : lmIndex q.1 q.2 a ≠ lmIndex q.1 (-q.2) a := by
      unfold lmIndex; omega
    have step_other : ∀ i, i ≠ lmIndex q.1 q.2 a → i ≠ lmIndex q.1 (-q.2) a →
        pairStep f a row q i = row i := by
      intro i h1 h2
      simp only [pairStep]
      rw [Row.set_ne _ _ h2, Row.set_ne _ _ h1]
    refine ⟨?_, ?_⟩
    · intro p hp
      simp only [List.foldl_cons]
      rcases List.mem_cons.mp hp with rfl | hp
      · have hout : ∀ p' ∈ L, lmIndex p.1 p.2 a ≠ lmIndex p'.1 p'.2 a ∧
            lmIndex p.1 p.2 a ≠ lmIndex p'.1 (-p'.2) a := by
          intro p' hp'
          have h1 := disj p' hp' 1 1 (by simp) (by simp)
          have h2 := disj p' hp' (-1) 1 (by simp) (by simp)
          simp at h1 h2
          exact ⟨fun h => h1 h.symm, fun h => h2 h.symm⟩
        have hout' : ∀ p' ∈ L, lmIndex p.1 (-p.2) a ≠ lmIndex p'.1 p'.2 a ∧
            lmIndex p.1 (-p.2) a ≠ lmIndex p'.1 (-p'.2) a := by
          intro p' hp'
          have h1 := disj p' hp' 1 (-1) (by simp) (by simp)
          have h2 := disj p' hp' (-1) (-1) (by simp) (by simp)
          simp at h1 h2
          exact ⟨fun h => h1 h.symm, fun h => h2 h.symm⟩
        rw [ih2 _ hout, ih2 _ hout']
        simp only [pairStep]
        rw [Row.set_ne _ _ hne]
        simp
      · have h11 := disj p hp 1 1 (by simp) (by simp)
        have h12 := disj p hp 1 (-1) (by simp) (by simp)
        have h21 := disj p hp (-1) 1 (by simp) (by simp)
        have h22 := disj p hp (-1) (-1) (by simp) (by simp)
        simp at h11 h12 h21 h22
        obtain ⟨e1, e2⟩ := ih1 p hp
        rw [e1, e2, step_other _ h11 h12, step_other _ h21 h22]
        exact ⟨rfl, rfl⟩
    · intro i hi
      simp only [List.foldl_cons]
      rw [ih2 i (fun p hp => hi p (by simp [hp]))]
      have := hi q (by simp)
      exact step_other i this.1 this.2

theorem foldl_labels (g : Row K → Int × Int → Row K) (a b : Int) (row : Row K) :
    (pyRange a (b + 1)).foldl (fun row ell =>
      (pyRange 1 (ell + 1)).foldl (fun row m => g row (ell, m)) row) row =
    (labels a b).foldl g row := by
  unfold labels
  rw [List.foldl_flatMap]
  simp only [List.foldl_map]

noncomputable def fTo (x y : ℂ) : ℂ × ℂ :=
  ((x + conj y) / (Real.sqrt 2 : ℂ), (x - conj y) / (Real.sqrt 2 : ℂ))
noncomputable def fFrom (x y : ℂ) : ℂ × ℂ :=
  ((x + y) / (Real.sqrt 2 : ℂ), conj (x - y) / (Real.sqrt 2 : ℂ))

theorem convertTo_eq (a b : Int) (row : Row ℂ) :
    convertTo a b row = (labels a b).foldl (pairStep fTo a) row := by
  rw [← foldl_labels]; rfl

theorem convertFrom_eq (a b : Int) (row : Row ℂ) :
    convertFrom a b row = (labels a b).foldl (pairStep fFrom a) row := by
  rw [← foldl_labels]; rfl

theorem good_labels (a b : Int) : Good (labels a b) := by
  rintro ⟨ell, m⟩ hp
  exact (mem_labels.mp hp).2

theorem sqrt2_mul : (Real.sqrt 2 : ℂ) * (Real.sqrt 2 : ℂ) = 2 := by
  rw [← Complex.ofReal_mul, Real.mul_self_sqrt (by norm_num)]; norm_num

theorem sqrt2_ne : (Real.sqrt 2 : ℂ) ≠ 0 := by
  intro h
  have := sqrt2_mul
  rw [h] at this; norm_num at this

theorem div_sqrt2_twice (z : ℂ) : z / (Real.sqrt 2 : ℂ) / (Real.sqrt 2 : ℂ) = z / 2 := by
  rw [div_div, sqrt2_mul]

theorem conj_sqrt2 : conj (Real.sqrt 2 : ℂ) = (Real.sqrt 2 : ℂ) := Complex.conj_ofReal _

theorem fFrom_fTo (x y : ℂ) : fFrom (fTo x y).1 (fTo x y).2 = (x, y) := by
  unfold fFrom fTo
  simp only [← add_div, ← sub_div, map_div₀, conj_sqrt2, div_sqrt2_twice]
  refine Prod.ext ?_ ?_
  · simp only; ring
  · simp only [map_sub, map_add, Complex.conj_conj]; ring

theorem fTo_fFrom (x y : ℂ) : fTo (fFrom x y).1 (fFrom x y).2 = (x, y) := by
  unfold fFrom fTo
  simp only [map_div₀, conj_sqrt2, Complex.conj_conj, ← add_div, ← sub_div, div_sqrt2_twice]
  refine Prod.ext ?_ ?_
  · simp only; ring
  · simp only; ring

theorem fTo_norm (x y : ℂ) :
    Complex.normSq (fTo x y).1 + Complex.normSq (fTo x y).2 =
      Complex.normSq x + Complex.normSq y := by
  unfold fTo
  simp only [Complex.normSq_div, Complex.normSq_ofReal, Real.mul_self_sqrt (show (0:ℝ) ≤ 2 by norm_num)]
  simp only [Complex.normSq_apply, Complex.add_re, Complex.add_im, Complex.sub_re, Complex.sub_im,
    Complex.conj_re, Complex.conj_im]
  ring

/-- Two folds whose pair functions are inverse to each other cancel. -/
theorem fold_fold (f g : K → K → K × K) (h : ∀ x y, g (f x y).1 (f x y).2 = (x, y)) (a b : Int)
    (row : Row K) :
    (labels a b).foldl (pairStep g a) ((labels a b).foldl (pairStep f a) row) = row := by
  obtain ⟨h1, h2⟩ := fold_spec f a _ (labels_nodup a b) (good_labels a b) row
  obtain ⟨h3, h4⟩ := fold_spec g a _ (labels_nodup a b) (good_labels a b)
    ((labels a b).foldl (pairStep f a) row)
  funext i
  by_cases hi : ∀ p ∈ labels a b, i ≠ lmIndex p.1 p.2 a ∧ i ≠ lmIndex p.1 (-p.2) a
  · rw [h4 i hi, h2 i hi]
  · push Not at hi
    obtain ⟨p, hp, hpi⟩ := hi
    by_cases e : i = lmIndex p.1 p.2 a
    · rw [e, (h3 p hp).1, (h1 p hp).1, (h1 p hp).2, h]
    · have e' := hpi e
      rw [e', (h3 p hp).2, (h1 p hp).1, (h1 p hp).2, h]

/-- A symmetric sum over `-ell..ell`, by pairs. -/
theorem sum_pairs (f : Int → ℝ) (n : Nat) :
    ((pyRange (-(n : Int)) ((n : Int) + 1)).map f).sum =
      f 0 + ((pyRange 1 ((n : Int) + 1)).map fun m => f m + f (-m)).sum := by
  induction n with
  | zero => simp [pyRange]
  | succ n ih =>
    have e1 : pyRange (-((n + 1 : Nat) : Int)) (((n + 1 : Nat) : Int) + 1) =
        -((n : Int) + 1) :: (pyRange (-(n : Int)) ((n : Int) + 1) ++ [(n : Int) + 1]) := by
      have h1 := pyRange_append (a := -((n : Int) + 1)) (b := -(n : Int)) (c := (n : Int) + 1 + 1)
        (by omega) (by omega)
      have h2 : pyRange (-((n : Int) + 1)) (-(n : Int)) = [-((n : Int) + 1)] := by
        have := pyRange_snoc (a := -((n : Int) + 1)) (b := -((n : Int) + 1)) (by omega)
        rw [pyRange_empty (le_refl _)] at this
        rw [show -((n : Int) + 1) + 1 = -(n : Int) by omega] at this
        simpa using this
      rw [h2, pyRange_snoc (a := -(n : Int)) (b := (n : Int) + 1) (by omega)] at h1
      push_cast
      exact h1.symm
    rw [e1]
    push_cast
    rw [pyRange_snoc (a := 1) (b := (n : Int) + 1) (by omega)]
    simp only [List.map_cons, List.map_append, List.map_nil, List.sum_cons, List.sum_append,
      List.sum_nil, ih]
    ring

end Verif.ConjPairs
