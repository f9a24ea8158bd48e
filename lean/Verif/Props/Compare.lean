import Verif.Spec.Compare
import Verif.Props.Modes
import Verif.Props.Intersection
import Mathlib.Tactic.NormNum
import Mathlib.Tactic.Linarith
import Mathlib.Tactic.Ring

/-!
# Properties of `compare` (C59)
-/

namespace Verif.Props.Compare

open Verif Verif.Modes Verif.Compare Verif.Compare.Spec

theorem value_eq (e : Ext) (t : List ℝ) (col : List ℂ) (x : ℝ) : interpolated e t col x = value e.spline t col x := by
  unfold interpolated value
  apply Complex.ext <;> simp

theorem mapM_ok {α β : Type} (f : α → Py β) (g : α → β) (l : List α) (h : ∀ x ∈ l, f x = .ok (g x)) : l.mapM f = .ok (l.map g) := by
  induction l with
  | nil => rfl
  | cons x l ih =>
    rw [List.mapM_cons, h x List.mem_cons_self, ok_bind, ih fun y hy => h y (List.mem_cons_of_mem _ hy)]
    rfl

theorem mapM_getElem {α β : Type} (f : α → Py β) (l : List α) (r : List β) (h : l.mapM f = .ok r) : r.length = l.length ∧ ∀ (i : Nat) (x : α), l[i]? = some x → ∃ y, r[i]? = some y ∧ f x = .ok y := by
  induction l generalizing r with
  | nil =>
    have := Except.ok.inj h
    subst this
    exact ⟨rfl, fun i x hx => by simp at hx⟩
  | cons a l ih =>
    rw [List.mapM_cons] at h
    cases hf : f a with
    | error e => rw [hf] at h; cases h
    | ok b =>
      rw [hf, ok_bind] at h
      cases hl : l.mapM f with
      | error e => rw [hl] at h; cases h
      | ok r' =>
        rw [hl, ok_bind] at h
        have := Except.ok.inj h
        subst this
        obtain ⟨h1, h2⟩ := ih r' hl
        refine ⟨by simp [h1], fun i x hx => ?_⟩
        cases i with
        | zero =>
          simp only [List.getElem?_cons_zero, Option.some.injEq] at hx
          subst hx
          exact ⟨b, by simp, hf⟩
        | succ i =>
          simp only [List.getElem?_cons_succ] at hx ⊢
          exact h2 i x hx

/-- The column of a mode, if both waveforms have the same modes. -/
theorem column_eq (e : Ext) (A B : Wf) (hA : Valid A) (hB : Valid B) (h1 : A.ellMin = B.ellMin) (h2 : A.ellMax = B.ellMax) (t : List ℝ) (i : Nat) (hi : i < A.cols.length) :
    ∃ l m a b, (LMRange A.ellMin A.ellMax)[i]? = some (l, m) ∧ A.cols[i]? = some a ∧ B.cols[i]? = some b ∧
      column e B A t i = .ok (t.map fun x => value e.spline A.t a x - value e.spline B.t b x) := by
  have hl : i < (LMRange A.ellMin A.ellMax).length := hA.2 ▸ hi
  have hlb : i < B.cols.length := by rw [hB.2, ← h1, ← h2]; exact hl
  obtain ⟨⟨l, m⟩, hp⟩ : ∃ p, (LMRange A.ellMin A.ellMax)[i] = p := ⟨_, rfl⟩
  have e1 : (LMRange A.ellMin A.ellMax)[i]? = some (l, m) := by rw [List.getElem?_eq_getElem hl, hp]
  have e2 : A.cols[i]? = some A.cols[i] := List.getElem?_eq_getElem hi
  have e3 : B.cols[i]? = some B.cols[i] := List.getElem?_eq_getElem hlb
  refine ⟨l, m, _, _, e1, e2, e3, ?_⟩
  unfold column
  rw [pyGet_nat e1, ok_bind, pyGet_nat e2, ok_bind]
  show (do
    let b ← pyGet B.cols (lmIndex l m B.ellMin)
    pure (t.map fun x => interpolated e A.t A.cols[i] x - interpolated e B.t b x) : Py (List ℂ)) = _
  rw [← h1, Modes.index_LM A.ellMin A.ellMax hA.1 i l m e1, pyGet_nat e3, ok_bind]
  simp only [value_eq]
  rfl

theorem columns_eq (e : Ext) (A B : Wf) (hA : Valid A) (hB : Valid B) (h1 : A.ellMin = B.ellMin) (h2 : A.ellMax = B.ellMax) (t : List ℝ) (F : List ℍ) :
    ∃ cols, (List.range A.cols.length).mapM (column e B A t) = .ok cols ∧ Difference e.spline A B ⟨t, F, B.ellMin, B.ellMax, cols⟩ := by
  classical
  have key := column_eq e A B hA hB h1 h2 t
  have : ∀ i : Nat, ∃ c, i < A.cols.length → column e B A t i = .ok c := by
    intro i
    by_cases hi : i < A.cols.length
    · obtain ⟨l, m, a, b, -, -, -, hc⟩ := key i hi
      exact ⟨_, fun _ => hc⟩
    · exact ⟨[], fun h => absurd h hi⟩
  choose g hg using this
  have hm := mapM_ok (column e B A t) g (List.range A.cols.length) fun i hi => hg i (List.mem_range.mp hi)
  refine ⟨_, hm, h1.symm, h2.symm, ⟨hB.1, ?_⟩, ?_⟩
  · show ((List.range A.cols.length).map g).length = (LMRange B.ellMin B.ellMax).length
    rw [List.length_map, List.length_range, hA.2, h1, h2]
  · rintro l m a b c ⟨i, i1, i2⟩ ⟨j, j1, j2⟩ ⟨k, k1, k2⟩
    have ei := Modes.index_LM _ _ hA.1 _ _ _ i1
    rw [← h1, ← h2] at j1
    have ej := Modes.index_LM _ _ hA.1 _ _ _ j1
    have k1' : (LMRange A.ellMin A.ellMax)[k]? = some (l, m) := by rw [h1, h2]; exact k1
    have ek := Modes.index_LM _ _ hA.1 _ _ _ k1'
    have hij : i = j := by omega
    have hik : i = k := by omega
    subst hij hik
    have hi : i < A.cols.length := by
      rw [hA.2]; exact (List.getElem?_eq_some_iff.mp i1).1
    obtain ⟨l', m', a', b', -, e2, e3, hc⟩ := key i hi
    have k2' : ((List.range A.cols.length).map g)[i]? = some c := k2
    rw [List.getElem?_map, List.getElem?_range hi] at k2'
    have hgc : g i = c := by simpa using k2'
    have := (hg i hi).symm.trans hc
    rw [← hgc, Except.ok.inj this]
    rw [i2] at e2
    rw [j2] at e3
    cases e2
    cases e3
    rfl

/-- The frame up to sign. -/
theorem fixSign_takes (e : Ext) (t : List ℝ) (a b : List ℍ) (ha : a.length = t.length) (hb : b.length = t.length) (R : ℍ) (hR : e.mean (List.zipWith (· * ·) a (b.map inverse)) t = .ok R) :
    ∃ F, fixSign e (List.zipWith (· * ·) a (b.map inverse)) t = .ok F ∧ Takes F a b := by
  have hlen : (List.zipWith (· * ·) a (b.map inverse)).length = t.length := by simp [ha, hb]
  have hmul : ∀ (i : Nat) (f x y : ℍ), (List.zipWith (· * ·) a (b.map inverse))[i]? = some f → a[i]? = some x → b[i]? = some y → y ≠ 0 → f * y = x := by
    intro i f x y hf hx hy h0
    have hy' : (b.map inverse)[i]? = some y⁻¹ := by rw [List.getElem?_map, hy]; rfl
    rw [List.getElem?_zipWith, hx, hy'] at hf
    have : x * y⁻¹ = f := by simpa using hf
    rw [← this, mul_assoc, inv_mul_cancel₀ h0, mul_one]
  unfold fixSign
  rw [if_pos hlen, hR, ok_bind]
  by_cases hn : nearerMinusOne R
  · refine ⟨_, if_pos hn, by simp [ha, hb], -1, .inr rfl, fun i f x y hf hx hy h0 => ?_⟩
    rw [List.getElem?_map] at hf
    cases hz : (List.zipWith (· * ·) a (b.map inverse))[i]? with
    | none => rw [hz] at hf; cases hf
    | some f' =>
      rw [hz] at hf
      have : -f' = f := by simpa using hf
      rw [← this]
      refine (neg_mul f' y).trans ?_
      rw [hmul i f' x y hz hx hy h0]
      exact (neg_one_smul ℝ x).symm
  · refine ⟨_, if_neg hn, by simp [ha, hb], 1, .inl rfl, fun i f x y hf hx hy h0 => ?_⟩
    rw [hmul i f x y hf hx hy h0, one_smul]

/-- C59, for waveforms with the same modes and frames that are both functions of time: at the common times, the data are the differences, mode by mode, and the frame takes this frame into the other. -/
theorem compare_partial (e : Ext) (A B : Wf) (hA : Valid A) (hB : Valid B) (h1 : A.ellMin = B.ellMin) (h2 : A.ellMax = B.ellMax) (t : List ℝ)
    (ht : Intersection.intersection B.t A.t none none none = .ok t) (fA : 1 < A.frame.length) (fB : 1 < B.frame.length)
    (sA : (e.squad A.frame A.t t).length = t.length) (sB : (e.squad B.frame B.t t).length = t.length) (hm : ∀ F : List ℍ, F.length = t.length → ∃ R, e.mean F t = .ok R) (p q : ℝ) :
    ∃ C, compareWf e B A p q = .ok C ∧ C.t = t ∧ Difference e.spline A B C ∧ Takes C.frame (e.squad A.frame A.t t) (e.squad B.frame B.t t) := by
  obtain ⟨R, hR⟩ := hm (List.zipWith (· * ·) (e.squad A.frame A.t t) ((e.squad B.frame B.t t).map inverse)) (by simp [sA, sB])
  obtain ⟨F, hF, hT⟩ := fixSign_takes e t _ _ sA sB R hR
  obtain ⟨cols, hc, hD⟩ := columns_eq e A B hA hB h1 h2 t F
  have hf : frame e B A t = .ok (List.zipWith (· * ·) (e.squad A.frame A.t t) ((e.squad B.frame B.t t).map inverse)) := if_pos ⟨fA, fB⟩
  refine ⟨_, ?_, rfl, hD, hT⟩
  unfold compareWf
  rw [if_neg (by rw [hA.2, hB.2, h1, h2]; simp), ht, ok_bind, hf, ok_bind, hF, ok_bind, hc]
  rfl

/-- C59, for waveforms with the same modes and without frames. -/
theorem compare_no_frame_partial (e : Ext) (A B : Wf) (hA : Valid A) (hB : Valid B) (h1 : A.ellMin = B.ellMin) (h2 : A.ellMax = B.ellMax) (t : List ℝ)
    (ht : Intersection.intersection B.t A.t none none none = .ok t) (h0 : t ≠ []) (fA : A.frame = []) (fB : B.frame = []) (p q : ℝ) :
    ∃ C, compareWf e B A p q = .ok C ∧ C.t = t ∧ Difference e.spline A B C ∧ C.frame = [] := by
  obtain ⟨cols, hc, hD⟩ := columns_eq e A B hA hB h1 h2 t []
  have hf : frame e B A t = .ok [] := by
    unfold frame
    rw [fA, fB]
    simp
  have hs : fixSign e [] t = .ok [] := by
    unfold fixSign
    rw [if_neg (fun hc => h0 (List.length_eq_zero_iff.mp hc.symm)), if_neg (by simp)]
  refine ⟨_, ?_, rfl, hD, rfl⟩
  unfold compareWf
  rw [if_neg (by rw [hA.2, hB.2, h1, h2]; simp), ht, ok_bind, hf, ok_bind, hs, ok_bind, hc]
  rfl

/-- C59: whenever a waveform is compared with itself and a result is returned, all data are 0. -/
theorem compare_self (e : Ext) (W C : Wf) (hW : Valid W) (p q : ℝ) (h : compareWf e W W p q = .ok C) : Valid C ∧ ∀ l m c, IsMode C l m c → ∀ z ∈ c, z = 0 := by
  unfold compareWf at h
  rw [if_neg (by simp)] at h
  cases ht : Intersection.intersection W.t W.t none none none with
  | error x => rw [ht] at h; cases h
  | ok t =>
    rw [ht, ok_bind] at h
    cases hf : frame e W W t with
    | error x => rw [hf] at h; cases h
    | ok F =>
      rw [hf, ok_bind] at h
      cases hs : fixSign e F t with
      | error x => rw [hs] at h; cases h
      | ok F' =>
        obtain ⟨cols, hc, hD⟩ := columns_eq e W W hW hW rfl rfl t F'
        rw [hs, ok_bind, hc, ok_bind] at h
        have hC := Except.ok.inj h
        subst hC
        refine ⟨hD.2.2.1, fun l m c hm z hz => ?_⟩
        obtain ⟨i, i1, i2⟩ := hm
        have hi : i < W.cols.length := by rw [hW.2]; exact (List.getElem?_eq_some_iff.mp i1).1
        have hw : IsMode W l m W.cols[i] := ⟨i, i1, List.getElem?_eq_getElem hi⟩
        rw [hD.2.2.2 l m _ _ c hw hw ⟨i, i1, i2⟩] at hz
        obtain ⟨x, -, rfl⟩ := List.mem_map.mp hz
        exact sub_self _

/-- C59: the sign of the frame is chosen so that its mean is not nearer to −1 than to 1 (if the mean changes its sign with the frame). -/
theorem sign_chosen (e : Ext) (t : List ℝ) (F F' : List ℍ) (R : ℍ) (hl : F.length = t.length) (hR : e.mean F t = .ok R) (hneg : e.mean (F.map (- ·)) t = .ok (-R)) (h : fixSign e F t = .ok F') :
    ∃ R', e.mean F' t = .ok R' ∧ Quaternion.normSq (R' - 1) ≤ Quaternion.normSq (R' + 1) := by
  unfold fixSign at h
  rw [if_pos hl, hR, ok_bind] at h
  by_cases hn : nearerMinusOne R
  · rw [if_pos hn] at h
    have := Except.ok.inj h
    subst this
    refine ⟨_, hneg, ?_⟩
    unfold nearerMinusOne at hn
    rw [decide_eq_true_iff, sub_neg_eq_add] at hn
    have e1 : -R - 1 = -(R + 1) := by abel
    have e2 : -R + 1 = -(R - 1) := by abel
    rw [e1, e2, Quaternion.normSq_neg, Quaternion.normSq_neg]
    exact hn.le
  · rw [if_neg hn] at h
    have := Except.ok.inj h
    subst this
    refine ⟨_, hR, ?_⟩
    unfold nearerMinusOne at hn
    rw [decide_eq_true_iff, sub_neg_eq_add, not_lt] at hn
    exact hn

/-! ## What is refused, and what goes wrong -/

/-- Waveforms with different numbers of modes are refused. -/
theorem modes_differ (e : Ext) (A B : Wf) (h : B.cols.length ≠ A.cols.length) (p q : ℝ) : compareWf e B A p q = .error .other := if_pos h

/-- C59 fails: if one of the frames is constant and the other one is not, or both are constant, or only this waveform has a constant frame, then `compare` raises AttributeError. -/
theorem constant_frame_raises (e : Ext) (A B : Wf) (hn : B.cols.length = A.cols.length) (t : List ℝ) (ht : Intersection.intersection B.t A.t none none none = .ok t)
    (h : A.frame.length = 1 ∧ 1 ≤ B.frame.length ∨ B.frame.length = 1) (p q : ℝ) : compareWf e B A p q = .error .attributeError := by
  have hf : frame e B A t = .error .attributeError := by
    unfold frame
    rw [if_neg (by omega)]
    split_ifs <;> first | rfl | omega
  unfold compareWf
  rw [if_neg (by simpa using hn), ht, ok_bind, hf]
  rfl

/-- C59 fails: if this waveform has no frame and the other one has, or only this one has a frame that is a function of time, the result has no frame, although the frames differ. -/
theorem frame_dropped (e : Ext) (A B C : Wf) (hB : B.frame = [] ∨ A.frame = [] ∧ 1 < B.frame.length) (t : List ℝ) (ht : Intersection.intersection B.t A.t none none none = .ok t) (h0 : t ≠ []) (p q : ℝ)
    (h : compareWf e B A p q = .ok C) : C.frame = [] := by
  unfold compareWf at h
  split at h
  · cases h
  · have hf : frame e B A t = .ok [] := by
      unfold frame
      have : B.frame.length = 0 ∨ A.frame.length = 0 ∧ 1 < B.frame.length := by simpa using hB
      split_ifs <;> first | rfl | omega
    have hs : fixSign e [] t = .ok [] := by
      unfold fixSign
      rw [if_neg (fun hc => h0 (List.length_eq_zero_iff.mp hc.symm)), if_neg (by simp)]
    rw [ht, ok_bind, hf, ok_bind, hs, ok_bind] at h
    cases hc : (List.range A.cols.length).mapM (column e B A t) with
    | error x => rw [hc] at h; cases h
    | ok cols =>
      rw [hc, ok_bind] at h
      have := Except.ok.inj h
      subst this
      rfl

/-- C59 fails: `min_time_step` and `min_time` have no effect. -/
theorem times_ignored (e : Ext) (A B : Wf) (p q p' q' : ℝ) : compareWf e B A p q = compareWf e B A p' q' := rfl

/-- C59 fails: two waveforms with the same number of modes, but not the same modes: modes with `ℓ ≤ 3` against modes with `3 ≤ ℓ ≤ 4`.  The mode (0, 0), which this waveform does not have, is compared with its mode (4, −4): the
index −9 counts from the end. -/
theorem wrong_modes (e : Ext) (A B C : Wf) (hA : Valid A) (hB : Valid B) (a1 : A.ellMin = 0) (a2 : A.ellMax = 3) (b1 : B.ellMin = 3) (b2 : B.ellMax = 4) (p q : ℝ) (h : compareWf e B A p q = .ok C) (a b : List ℂ)
    (ha : IsMode A 0 0 a) (hb : IsMode B 4 (-4) b) : C.cols[0]? = some (C.t.map fun x => value e.spline A.t a x - value e.spline B.t b x) := by
  have lA : (LMRange A.ellMin A.ellMax)[0]? = some (0, 0) := by rw [a1, a2]; decide +kernel
  have lB : (LMRange B.ellMin B.ellMax)[7]? = some (4, -4) := by rw [b1, b2]; decide +kernel
  have nA : A.cols.length = 16 := by rw [hA.2, a1, a2]; decide +kernel
  have nB : B.cols.length = 16 := by rw [hB.2, b1, b2]; decide +kernel
  obtain ⟨i, i1, i2⟩ := ha
  have ei := Modes.index_LM _ _ hA.1 _ _ _ i1
  have ei' := Modes.index_LM _ _ hA.1 _ _ _ lA
  obtain ⟨j, j1, j2⟩ := hb
  have ej := Modes.index_LM _ _ hB.1 _ _ _ j1
  have ej' := Modes.index_LM _ _ hB.1 _ _ _ lB
  have : i = 0 := by omega
  subst this
  have : j = 7 := by omega
  subst this
  have hcol : ∀ t, column e B A t 0 = .ok (t.map fun x => value e.spline A.t a x - value e.spline B.t b x) := by
    intro t
    have g1 : pyGet B.cols (lmIndex 0 0 B.ellMin) = .ok b := by
      rw [b1, show lmIndex 0 0 3 = -9 by decide]
      unfold pyGet
      have := (List.getElem?_eq_some_iff.mp j2).2
      simp [nB, this]
    have g2 : pyGet (LMRange A.ellMin A.ellMax) ((0 : Nat) : Int) = .ok (0, 0) := pyGet_nat lA
    have g3 : pyGet A.cols ((0 : Nat) : Int) = .ok a := pyGet_nat i2
    unfold column
    rw [g2, ok_bind, g3, ok_bind]
    show (do
      let b ← pyGet B.cols (lmIndex 0 0 B.ellMin)
      pure (t.map fun x => interpolated e A.t a x - interpolated e B.t b x) : Py (List ℂ)) = _
    rw [g1, ok_bind]
    simp only [value_eq]
    rfl
  unfold compareWf at h
  rw [if_neg (by rw [nA, nB]; simp)] at h
  cases ht : Intersection.intersection B.t A.t none none none with
  | error x => rw [ht] at h; cases h
  | ok t =>
    rw [ht, ok_bind] at h
    cases hf : frame e B A t with
    | error x => rw [hf] at h; cases h
    | ok F =>
      rw [hf, ok_bind] at h
      cases hs : fixSign e F t with
      | error x => rw [hs] at h; cases h
      | ok F' =>
        rw [hs, ok_bind] at h
        cases hc : (List.range A.cols.length).mapM (column e B A t) with
        | error x => rw [hc] at h; cases h
        | ok cols =>
          rw [hc, ok_bind] at h
          have := Except.ok.inj h
          subst this
          obtain ⟨-, hg⟩ := mapM_getElem _ _ _ hc
          obtain ⟨y, y1, y2⟩ := hg 0 0 (by rw [nA]; rfl)
          rw [hcol t] at y2
          rw [← Except.ok.inj y2] at y1
          exact y1

/-- Two waveforms with one mode, for the example. -/
noncomputable def sample (z : ℂ) : Wf := ⟨[0, 1, 2], [], 0, 0, [[z, z, z]]⟩

/-- The common times exist whenever both waveforms have at least two increasing times and the time ranges overlap. -/
theorem times_exist (t1 t2 : List ℝ) (hs1 : t1.Pairwise (· < ·)) (hs2 : t2.Pairwise (· < ·)) (n1 : 2 ≤ t1.length) (n2 : 2 ≤ t2.length) (a b z1 z2 : ℝ) (ha : t1.head? = some a) (hb : t2.head? = some b)
    (hz1 : t1.getLast? = some z1) (hz2 : t2.getLast? = some z2) (h1 : a < z1) (h2 : b < z2) (h3 : a < z2) (h4 : b < z1) :
    ∃ t, Intersection.intersection t1 t2 none none none = .ok t ∧ t ≠ [] ∧ t.Pairwise (· < ·) ∧ ∀ x ∈ t, a ≤ x ∧ b ≤ x ∧ x < z1 ∧ x < z2 := by
  obtain ⟨m, -, -, e, -⟩ := Intersection.intersection_default_step t1 t2 n1 n2 none none
  have hsp := Intersection.intersection_spec t1 t2 hs1 hs2 a b z1 z2 ha hb hz1 hz2 m none none (max a b) (min z1 z2)
    ⟨(max_choice a b).imp id (fun h => .inl h), le_max_left _ _, le_max_right _ _, fun x h => by cases h⟩
    ⟨(min_choice z1 z2).imp id (fun h => .inl h), min_le_left _ _, min_le_right _ _, fun x h => by cases h⟩
  have k1 : max a b < z1 := max_lt h1 h4
  have k2 : max a b < z2 := max_lt h3 h2
  have k3 : a < min z1 z2 := lt_min h1 h3
  have k4 : b < min z1 z2 := lt_min h4 h2
  rw [if_neg (by rintro (h | h | h | h) <;> linarith)] at hsp
  obtain ⟨t, ht, hg⟩ := hsp
  obtain ⟨g1, g2, -, g3, -⟩ := Intersection.intersection_grid t1 t2 hs1 hs2 m _ _ t hg
  refine ⟨t, e.trans ht, fun h0 => absurd (g3.mp h0) (not_le.mpr (lt_min k1 k2)), g1, fun x hx => ?_⟩
  obtain ⟨x1, x2⟩ := g2 x hx
  exact ⟨(le_max_left _ _).trans x1, (le_max_right _ _).trans x1, x2.trans_le (min_le_left _ _), x2.trans_le (min_le_right _ _)⟩

/-- Not vacuous. -/
example (e : Ext) : ∃ C, compareWf e (sample 1) (sample 2) 0 0 = .ok C ∧ C.t ≠ [] := by
  obtain ⟨t, ht, h0, -⟩ := times_exist [0, 1, 2] [0, 1, 2] (by simp) (by simp) (by simp) (by simp) 0 0 2 2 rfl rfl rfl rfl (by norm_num) (by norm_num) (by norm_num) (by norm_num)
  have hv : ∀ z, Valid (sample z) := fun z => ⟨le_refl _, by show 1 = (LMRange 0 0).length; decide +kernel⟩
  obtain ⟨C, h, hC, -⟩ := compare_no_frame_partial e (sample 2) (sample 1) (hv _) (hv _) rfl rfl t ht h0 rfl rfl 0 0
  exact ⟨C, h, hC ▸ h0⟩

end Verif.Props.Compare
