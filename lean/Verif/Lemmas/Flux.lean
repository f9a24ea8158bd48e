import Verif.Spec.Flux
import Verif.Lemmas.ModeCalc
import Verif.Lemmas.Modes
import Verif.Props.Slicing

namespace Verif.Flux
open Verif.Modes Verif.Slicing Verif.Spec.Flux Verif.Spec.Slicing Verif.Spec.AngMom ComplexConjugate Finset

theorem matEl_cons (e : Entry) (gen : List Entry) (j n l m : Int) :
    matEl (e :: gen) j n l m = (if e.j = j ∧ e.n = n ∧ e.l = l ∧ e.m = m then e.val else 0) + matEl gen j n l m := by
  unfold matEl
  rw [List.filter_cons]
  by_cases h : e.j = j ∧ e.n = n ∧ e.l = l ∧ e.m = m
  · rw [if_pos (by simpa using h), if_pos h, List.map_cons, List.sum_cons]
  · rw [if_neg (by simpa using h), if_neg h, zero_add]

/-- The sum over the sparse entries is the full double sum. -/
theorem sum_entries (a b : Int) (f g : Fn) (gen : List Entry) (h : Inside a b gen) :
    (gen.map fun e => conj (f e.j e.n) * g e.l e.m * e.val).sum = bracket a b f (matEl gen) g := by
  induction gen with
  | nil => simp [bracket, matEl]
  | cons e gen ih =>
    rw [List.map_cons, List.sum_cons, ih (fun x hx => h x (List.mem_cons_of_mem _ hx))]
    unfold bracket
    simp only [matEl_cons, mul_add, add_mul, sum_add_distrib]
    congr 1
    obtain ⟨⟨h1, h2, h3, h4⟩, h5, h6, h7, h8⟩ := h e List.mem_cons_self
    rw [sum_eq_single_of_mem e.j (mem_Icc.mpr ⟨h1, h2⟩), sum_eq_single_of_mem e.n (mem_Icc.mpr ⟨h3, h4⟩),
      sum_eq_single_of_mem e.l (mem_Icc.mpr ⟨h5, h6⟩), sum_eq_single_of_mem e.m (mem_Icc.mpr ⟨h7, h8⟩)]
    · rw [if_pos ⟨rfl, rfl, rfl, rfl⟩]; ring
    · intro m _ hm
      rw [if_neg (fun h => hm h.2.2.2.symm)]; ring
    · intro l _ hl
      apply sum_eq_zero; intro m _
      rw [if_neg (fun h => hl h.2.2.1.symm)]; ring
    · intro n _ hn
      apply sum_eq_zero; intro l _
      apply sum_eq_zero; intro m _
      rw [if_neg (fun h => hn h.2.1.symm)]; ring
    · intro j _ hj
      apply sum_eq_zero; intro n _
      apply sum_eq_zero; intro l _
      apply sum_eq_zero; intro m _
      rw [if_neg (fun h => hj h.1.symm)]; ring

theorem cell_of_mode {w : WM ℝ Unit ℂ} {k : Nat} {ell m : Int} {v : ℂ} (hi : 0 ≤ lmIndex ell m w.ellMin)
    (h : modeAt w k ell m = some v) : cell w.data k (lmIndex ell m w.ellMin) = .ok v := by
  unfold modeAt at h
  unfold cell
  cases hr : w.data[k]? with
  | none => rw [hr] at h; simp at h
  | some r =>
    rw [hr] at h
    simp only [Option.bind_some] at h
    have : pyGet r (((lmIndex ell m w.ellMin).toNat : Nat) : Int) = .ok v := pyGet_nat h
    rw [Int.toNat_of_nonneg hi] at this
    simp only [this]

theorem pyGet_map {α β : Type} (f : α → β) (r : List α) (c : Int) :
    pyGet (r.map f) c = (match pyGet r c with | .ok v => .ok (f v) | .error e => .error e) := by
  unfold pyGet
  simp only [List.length_map, List.getElem?_map]
  generalize (if c < 0 then c + ↑r.length else c) = j
  by_cases hj : j < 0
  · simp [hj]
  · simp only [hj, if_false]
    cases r[j.toNat]? <;> rfl

theorem cell_map {d : List (List ℂ)} {k : Nat} {c : Int} {v : ℂ} (h : cell d k c = .ok v) :
    cell (d.map (·.map conj)) k c = .ok (conj v) := by
  unfold cell at h ⊢
  rw [List.getElem?_map]
  generalize d[k]? = o at h ⊢
  cases o with
  | none => cases h
  | some r =>
    simp only [Option.map_some, pyGet_map] at h ⊢
    generalize pyGet r c = q at h ⊢
    cases q with
    | error e => cases h
    | ok u => cases h; rfl

theorem positions_all (n : Nat) : PySlice.positions ⟨none, none, none⟩ n = .ok (List.range n) := by
  unfold PySlice.positions
  simp [resolveBound]

theorem lmIndex_nonneg {a ell m : Int} (ha : 0 ≤ a) (h : a ≤ ell) (hm : -ell ≤ m) : 0 ≤ lmIndex ell m a := by
  unfold lmIndex
  nlinarith

/-- Every mode of a valid waveform is there. -/
theorem modeAt_some {w : WM ℝ Unit ℂ} (hw : Valid w) {k : Nat} (hk : k < w.t.length) {ell m : Int} (h1 : w.ellMin ≤ ell)
    (h2 : ell ≤ w.ellMax) (h3 : -ell ≤ m) (h4 : m ≤ ell) : modeAt w k ell m = some (modesOf w k ell m) := by
  have hlen : k < w.data.length := by rw [hw.rows]; exact hk
  have hr : w.data[k]? = some w.data[k] := List.getElem?_eq_getElem hlen
  have hcols := hw.cols w.data[k] (List.getElem_mem hlen)
  have hmin := hw.min
  have hmodes := hw.modes
  have hi := lmIndex_nonneg hmin h1 h3
  have hlt : lmIndex ell m w.ellMin < w.nCols := by
    rw [hmodes]; unfold lmIndex; nlinarith
  have : (lmIndex ell m w.ellMin).toNat < (w.data[k]).length := by omega
  unfold modesOf modeAt
  rw [hr]
  simp only [Option.bind_some]
  rw [List.getElem?_eq_getElem this]; rfl

/-- One time of `sparse_expectation_value`. -/
theorem sparseAt_eq (A B : WM ℝ Unit ℂ) (hA : Valid A) (hB : Valid B) (hmin : B.ellMin = A.ellMin) (hmax : B.ellMax = A.ellMax)
    (k : Nat) (hkA : k < A.t.length) (hkB : k < B.t.length) (gen : List Entry) (h : Inside A.ellMin A.ellMax gen) :
    sparseAt (A.data.map (·.map conj)) B.data (gen.map fun e => (lmIndex e.j e.n A.ellMin, lmIndex e.l e.m A.ellMin, e.val)) k =
      .ok (bracket A.ellMin A.ellMax (modesOf A k) (matEl gen) (modesOf B k)) := by
  rw [← sum_entries _ _ _ _ _ h]
  unfold sparseAt
  have key : ∀ (gen : List Entry), Inside A.ellMin A.ellMax gen → ∀ acc : ℂ,
      (gen.map fun e => (lmIndex e.j e.n A.ellMin, lmIndex e.l e.m A.ellMin, e.val)).foldlM (fun acc e => do
        let x ← cell (A.data.map (·.map conj)) k e.1
        let y ← cell B.data k e.2.1
        pure (acc + x * y * e.2.2)) acc =
      (Except.ok (acc + (gen.map fun e => conj (modesOf A k e.j e.n) * modesOf B k e.l e.m * e.val).sum) : Py ℂ) := by
    intro gen
    induction gen with
    | nil => intro _ acc; simp [pure_eq_ok]
    | cons e gen ih =>
      intro h acc
      obtain ⟨⟨h1, h2, h3, h4⟩, h5, h6, h7, h8⟩ := h e List.mem_cons_self
      have hx := cell_map (cell_of_mode (lmIndex_nonneg hA.min h1 h3) (modeAt_some hA hkA h1 h2 h3 h4))
      have hy : cell B.data k (lmIndex e.l e.m A.ellMin) = .ok (modesOf B k e.l e.m) := by
        rw [← hmin]
        exact cell_of_mode (lmIndex_nonneg hB.min (by omega) h7) (modeAt_some hB hkB (by omega) (by omega) h7 h8)
      rw [List.map_cons, List.foldlM_cons]
      simp only
      rw [hx, ok_bind, hy, ok_bind, pure_eq_ok, ok_bind, ih (fun x hx => h x (List.mem_cons_of_mem _ hx))]
      rw [List.map_cons, List.sum_cons, add_assoc]
  rw [key gen h 0, zero_add]

theorem mapM_ok {α β : Type} (f : α → Py β) (g : α → β) (l : List α) (h : ∀ x ∈ l, f x = .ok (g x)) :
    l.mapM f = .ok (l.map g) := by
  induction l with
  | nil => rfl
  | cons x l ih =>
    rw [List.mapM_cons, h x List.mem_cons_self, ok_bind, ih (fun y hy => h y (List.mem_cons_of_mem _ hy)), ok_bind]
    rfl

/-- `sparse_expectation_value`. -/
theorem sparse_eq (A B : WM ℝ Unit ℂ) (hA : Valid A) (hB : Valid B) (hmin : B.ellMin = A.ellMin) (hmax : B.ellMax = A.ellMax)
    (ht : A.t.length = B.t.length) (gen : List Entry) (h : Inside A.ellMin A.ellMax gen) :
    sparse (A.data.map (·.map conj)) B.data (gen.map fun e => (lmIndex e.j e.n A.ellMin, lmIndex e.l e.m A.ellMin, e.val)) =
      .ok ((List.range A.t.length).map fun k => bracket A.ellMin A.ellMax (modesOf A k) (matEl gen) (modesOf B k)) := by
  unfold sparse
  rw [List.length_map, hA.rows]
  apply mapM_ok
  intro k hk
  rw [List.mem_range] at hk
  exact sparseAt_eq A B hA hB hmin hmax k hk (by omega) gen h

/-- Taking all times and the modes of a range. -/
theorem clip_spec' (w : WM ℝ Unit ℂ) (hw : Valid w) (hn : 2 ≤ w.nCols) (lo hi : Int) (h1 : w.ellMin ≤ lo) (h2 : lo ≤ hi)
    (h3 : hi ≤ w.ellMax) : ∃ V, getitem w (.tuple [.slice ⟨none, none, none⟩, .slice ⟨some lo, some (hi + 1), none⟩]) = .ok V ∧
      Valid V ∧ V.ellMin = lo ∧ V.ellMax = hi ∧ V.t.length = w.t.length ∧
      (∀ (k : Nat) (ell m : Int), lo ≤ ell → ell ≤ hi → -ell ≤ m → m ≤ ell → modesOf V k ell m = modesOf w k ell m) ∧ V.t = w.t := by
  have hmin := hw.min
  have main : ∀ l1 : Option Int, l1 ≠ some 0 → l1.getD w.ellMin = lo →
      ∃ V, getitem w (.tuple [.slice ⟨none, none, none⟩, .slice ⟨l1, some (hi + 1), none⟩]) = .ok V ∧
      Valid V ∧ V.ellMin = lo ∧ V.ellMax = hi ∧ V.t.length = w.t.length ∧
      (∀ (k : Nat) (ell m : Int), lo ≤ ell → ell ≤ hi → -ell ≤ m → m ≤ ell → modesOf V k ell m = modesOf w k ell m) ∧ V.t = w.t := by
    intro l1 hl1 hlo
    obtain ⟨idx, V, hidx, hV, hr, hval⟩ := Verif.Props.Slicing.getitem_time_ell_partial w hw hn ⟨none, none, none⟩
      (by simp) l1 (some (hi + 1)) hl1 (by intro h; simp at h; omega) (by rw [hlo]; exact h1)
      (by rw [hlo]; simp; omega) (by simp; omega)
    simp only [hlo, Option.getD_some, add_sub_cancel_right] at hr
    have hidx' : idx = List.range w.t.length := by
      rw [positions_all] at hidx
      exact (Except.ok.inj hidx).symm
    refine ⟨V, hV, hval, hr.ellMin, hr.ellMax, ?_, ?_, ?_⟩
    · have ht := hr.times
      rw [hidx'] at ht
      apply Nat.le_antisymm
      · by_contra hlt
        push Not at hlt
        have := ht w.t.length
        rw [List.getElem?_eq_getElem hlt] at this
        simp at this
      · by_contra hlt
        push Not at hlt
        have := ht V.t.length
        rw [List.getElem?_eq_none (Nat.le_refl _), List.getElem?_eq_getElem (by simpa using hlt)] at this
        simp at this
        omega
    · intro k ell m ha hb hc hd
      unfold modesOf
      rw [hr.modes k ell m ha hb hc hd, hidx']
      by_cases hk : k < w.t.length
      · rw [List.getElem?_eq_getElem (by simpa using hk)]; simp
      · rw [List.getElem?_eq_none (by simpa using hk)]
        unfold modeAt
        rw [List.getElem?_eq_none (by rw [hw.rows]; omega)]; rfl
    · apply List.ext_getElem?
      intro k
      rw [hr.times, hidx']
      by_cases hk : k < w.t.length
      · rw [List.getElem?_range hk]; rfl
      · rw [List.getElem?_eq_none (by simpa using hk), List.getElem?_eq_none (by omega)]; rfl
  by_cases h0 : lo = 0
  · subst h0
    rw [Verif.Props.Slicing.getitem_start_zero _ _ _ (by omega)]
    exact main none (by simp) (by simp; omega)
  · exact main (some lo) (by simpa using h0) (by simp)

theorem clip_spec (w : WM ℝ Unit ℂ) (hw : Valid w) (hn : 2 ≤ w.nCols) (lo hi : Int) (h1 : w.ellMin ≤ lo) (h2 : lo ≤ hi)
    (h3 : hi ≤ w.ellMax) : ∃ V, getitem w (.tuple [.slice ⟨none, none, none⟩, .slice ⟨some lo, some (hi + 1), none⟩]) = .ok V ∧
      Valid V ∧ V.ellMin = lo ∧ V.ellMax = hi ∧ V.t.length = w.t.length ∧
      ∀ (k : Nat) (ell m : Int), lo ≤ ell → ell ≤ hi → -ell ≤ m → m ≤ ell → modesOf V k ell m = modesOf w k ell m := by
  obtain ⟨V, a, b, c, d, e, f, _⟩ := clip_spec' w hw hn lo hi h1 h2 h3
  exact ⟨V, a, b, c, d, e, f⟩

end Verif.Flux
