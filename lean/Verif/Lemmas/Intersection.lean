import Verif.Model.Intersection
import Verif.Spec.Intersection
import Mathlib.Algebra.Order.Group.Defs
import Mathlib.Algebra.Order.Group.Unbundled.Basic
import Mathlib.Order.MinMax
import Mathlib.Data.List.Basic
import Mathlib.Tactic.Abel

set_option linter.unusedSectionVars false

namespace Verif.Intersection
open Verif.Spec.Intersection
variable {α : Type} [LinearOrder α] [AddCommGroup α] [IsOrderedAddMonoid α]

theorem advance_spec (t : α) (rest : List α) (I : Nat) (last : α) (hl : rest.getLast? = some last)
    (hle : t ≤ last) :
    ∃ k x, advance t rest I = .ok (I + k) ∧ rest[k]? = some x ∧ t ≤ x ∧
      ∀ j, j < k → ∀ y, rest[j]? = some y → y < t := by
  induction rest generalizing I with
  | nil => simp at hl
  | cons a rest ih =>
    unfold advance
    by_cases h : t > a
    · rw [if_pos h]
      have hne : rest ≠ [] := by
        rintro rfl
        simp at hl; subst hl
        exact absurd h (not_lt.mpr hle)
      have hl' : rest.getLast? = some last := by
        rw [List.getLast?_cons_of_ne_nil hne] at hl; exact hl
      obtain ⟨k, x, h1, h2, h3, h4⟩ := ih (I + 1) hl'
      refine ⟨k + 1, x, by rw [h1]; congr 1; omega, by simpa using h2, h3, ?_⟩
      intro j hj y hy
      cases j with
      | zero => simp at hy; subst hy; exact h
      | succ j => exact h4 j (by omega) y (by simpa using hy)
    · rw [if_neg h]
      exact ⟨0, a, rfl, by simp, not_lt.mp h, by simp⟩

theorem sorted_lt {ts : List α} (hs : ts.Pairwise (· < ·)) {i j : Nat} {x y : α}
    (hi : ts[i]? = some x) (hj : ts[j]? = some y) (hij : i < j) : x < y := by
  obtain ⟨h1, rfl⟩ := List.getElem?_eq_some_iff.mp hi
  obtain ⟨h2, rfl⟩ := List.getElem?_eq_some_iff.mp hj
  exact List.pairwise_iff_getElem.mp hs i j h1 h2 hij

/-- What `adjust` returns for a time inside the range of a strictly increasing array. -/
theorem adjust_spec (ts : List α) (hs : ts.Pairwise (· < ·)) (first last t : α)
    (hf : ts.head? = some first) (hl : ts.getLast? = some last) (h1 : first ≤ t) (h2 : t < last)
    (I : Nat) (hI : I < ts.length) :
    ∃ I' x y, adjust t first last ts I = .ok I' ∧ 1 ≤ I' ∧ I ≤ I' ∧ I' < ts.length ∧
      ts[I' - 1]? = some x ∧ ts[I']? = some y ∧ t ≤ y ∧ (x < t ∨ I' = max I 1) := by
  have hne : ts ≠ [] := by rintro rfl; simp at hf
  have hlen2 : 2 ≤ ts.length := by
    cases ts with
    | nil => exact absurd rfl hne
    | cons a l =>
      cases l with
      | nil =>
        simp at hf hl; subst hf; subst hl
        exact absurd h2 (not_lt.mpr h1)
      | cons b l => simp
  have hdrop : (ts.drop (max I 1)).getLast? = some last := by
    rw [List.getLast?_drop, if_neg (by omega)]; exact hl
  obtain ⟨k, y, ha, hy, hty, hbefore⟩ := advance_spec t _ (max I 1) last hdrop (le_of_lt h2)
  rw [List.getElem?_drop] at hy
  have hlt : max I 1 + k < ts.length := (List.getElem?_eq_some_iff.mp hy).1
  refine ⟨max I 1 + k, ts[max I 1 + k - 1], y, ?_, by omega, by omega, hlt,
    List.getElem?_eq_getElem (by omega), hy, hty, ?_⟩
  · unfold adjust
    rw [if_neg]
    · exact ha
    · push Not; exact ⟨h1, le_of_lt h2⟩
  · by_cases hk : k = 0
    · right; omega
    · left
      apply hbefore (k - 1) (by omega)
      rw [List.getElem?_drop]
      rw [show max I 1 + (k - 1) = max I 1 + k - 1 by omega]
      exact List.getElem?_eq_getElem (by omega)

theorem localStep_spec (ts : List α) (I : Nat) (hI : 1 ≤ I) (x y : α)
    (hx : ts[I - 1]? = some x) (hy : ts[I]? = some y) : localStep ts I = .ok (y - x) := by
  unfold localStep
  have : ((I : Int) - 1) = ((I - 1 : Nat) : Int) := by omega
  rw [pyGet_nat hy, this, pyGet_nat hx]
  rfl

/-- The loop invariant after at least one pass through the loop. -/
structure Inv (t1 t2 : List α) (n : Nat) (cur : α) (I1 I2 : Nat) : Prop where
  h1 : 1 ≤ I1
  l1 : I1 < t1.length
  p1 : ∀ x, t1[I1 - 1]? = some x → x < cur
  h2 : 1 ≤ I2
  l2 : I2 < t2.length
  p2 : ∀ x, t2[I2 - 1]? = some x → x < cur
  room : n + 1 ≤ I1 + I2 ∨ (n ≤ I1 + I2 ∧
    ((∃ y, t1[I1]? = some y ∧ y < cur) ∨ (∃ y, t2[I2]? = some y ∧ y < cur)))

theorem spacing_of {ts : List α} {I : Nat} {x y t : α} (h1 : 1 ≤ I) (hx : ts[I - 1]? = some x)
    (hy : ts[I]? = some y) (hxt : x < t ∨ (I = 1 ∧ x = t)) (hty : t ≤ y) :
    LocalSpacing ts t (y - x) := by
  refine ⟨I - 1, x, y, hx, ?_, rfl, ?_, hty⟩
  · rw [show I - 1 + 1 = I by omega]; exact hy
  · rcases hxt with h | ⟨h, h'⟩
    · exact Or.inl h
    · exact Or.inr ⟨by omega, h'⟩

theorem loop_spec (t1 t2 : List α) (hs1 : t1.Pairwise (· < ·)) (hs2 : t2.Pairwise (· < ·))
    (min1 max1 min2 max2 maxt step : α)
    (hf1 : t1.head? = some min1) (hl1 : t1.getLast? = some max1)
    (hf2 : t2.head? = some min2) (hl2 : t2.getLast? = some max2)
    (hm1 : maxt ≤ max1) (hm2 : maxt ≤ max2)
    (cap : Nat) (acc : List α) (cur : α) (I1 I2 : Nat)
    (hc1 : min1 ≤ cur) (hc2 : min2 ≤ cur)
    (hcap : cap + acc.length + 1 = t1.length + t2.length)
    (hinv : (acc = [] ∧ I1 = 0 ∧ I2 = 0) ∨ Inv t1 t2 acc.length cur I1 I2) :
    ∃ out, loop t1 t2 min1 max1 min2 max2 maxt step cap acc cur I1 I2 = .ok (acc ++ out) ∧
      Grid t1 t2 step maxt cur out := by
  induction cap using Nat.strong_induction_on generalizing acc cur I1 I2 with
  | _ cap ih =>
  unfold loop
  by_cases hlt : cur < maxt
  swap
  · rw [if_neg hlt]
    exact ⟨[], by simp [pure_eq_ok], Grid.stop _ (not_lt.mp hlt)⟩
  rw [if_pos hlt]
  have hne1 : t1 ≠ [] := by rintro rfl; simp at hf1
  have hne2 : t2 ≠ [] := by rintro rfl; simp at hf2
  have hI1 : I1 < t1.length := by
    rcases hinv with ⟨_, rfl, _⟩ | h
    · exact List.length_pos_iff.mpr hne1
    · exact h.l1
  have hI2 : I2 < t2.length := by
    rcases hinv with ⟨_, _, rfl⟩ | h
    · exact List.length_pos_iff.mpr hne2
    · exact h.l2
  obtain ⟨J1, x1, y1, ha1, hJ1, hIJ1, hJl1, hx1, hy1, hty1, hor1⟩ :=
    adjust_spec t1 hs1 min1 max1 cur hf1 hl1 hc1 (lt_of_lt_of_le hlt hm1) I1 hI1
  obtain ⟨J2, x2, y2, ha2, hJ2, hIJ2, hJl2, hx2, hy2, hty2, hor2⟩ :=
    adjust_spec t2 hs2 min2 max2 cur hf2 hl2 hc2 (lt_of_lt_of_le hlt hm2) I2 hI2
  have hd1 := localStep_spec t1 J1 hJ1 x1 y1 hx1 hy1
  have hd2 := localStep_spec t2 J2 hJ2 x2 y2 hx2 hy2
  -- the left end of the chosen interval
  have left : ∀ (ts : List α) (mn : α) (I J : Nat) (x : α), ts.head? = some mn → mn ≤ cur →
      ts[J - 1]? = some x → (x < cur ∨ J = max I 1) →
      (I = 0 ∨ (1 ≤ I ∧ ∀ z, ts[I - 1]? = some z → z < cur)) → x < cur ∨ (J = 1 ∧ x = cur) := by
    intro ts mn I J x hh hmn hx hor hI
    rcases hor with h | h
    · exact Or.inl h
    · rcases hI with rfl | ⟨hI, hz⟩
      · simp at h; subst h
        simp [List.head?_eq_getElem?] at hh
        simp [hh] at hx
        subst hx
        rcases lt_or_eq_of_le hmn with h | h
        · exact Or.inl h
        · exact Or.inr ⟨rfl, h⟩
      · left; apply hz
        rw [show I = J by omega]; exact hx
  have hleft1 : x1 < cur ∨ (J1 = 1 ∧ x1 = cur) := by
    apply left t1 min1 I1 J1 x1 hf1 hc1 hx1 hor1
    rcases hinv with ⟨_, h, _⟩ | h
    · exact Or.inl h
    · exact Or.inr ⟨h.h1, h.p1⟩
  have hleft2 : x2 < cur ∨ (J2 = 1 ∧ x2 = cur) := by
    apply left t2 min2 I2 J2 x2 hf2 hc2 hx2 hor2
    rcases hinv with ⟨_, _, h⟩ | h
    · exact Or.inl h
    · exact Or.inr ⟨h.h2, h.p2⟩
  have hxy1 : x1 < y1 := sorted_lt hs1 hx1 hy1 (by omega)
  have hxy2 : x2 < y2 := sorted_lt hs2 hx2 hy2 (by omega)
  have hfol : Follows t1 t2 step cur (cur + max (min (y1 - x1) (y2 - x2)) step) :=
    ⟨_, _, spacing_of hJ1 hx1 hy1 hleft1 hty1, spacing_of hJ2 hx2 hy2 hleft2 hty2, rfl⟩
  have hpos : cur < cur + max (min (y1 - x1) (y2 - x2)) step := by
    apply lt_add_of_pos_right
    apply lt_of_lt_of_le _ (le_max_left _ _)
    exact lt_min (sub_pos.mpr hxy1) (sub_pos.mpr hxy2)
  -- the sum of the indices after the adjustment
  have hsum : acc.length + 1 ≤ J1 + J2 := by
    rcases hinv with ⟨h, _, _⟩ | h
    · subst h; simp; omega
    · rcases h.room with h' | ⟨h', h''⟩
      · omega
      · rcases h'' with ⟨y, hy, hyc⟩ | ⟨y, hy, hyc⟩
        · have : J1 ≠ I1 := by
            rintro rfl
            rw [hy1] at hy; simp at hy; subst hy
            exact absurd hyc (not_lt.mpr hty1)
          omega
        · have : J2 ≠ I2 := by
            rintro rfl
            rw [hy2] at hy; simp at hy; subst hy
            exact absurd hyc (not_lt.mpr hty2)
          omega
  rw [ha1, ha2]
  simp only [ok_bind, hd1, hd2]
  generalize hnext : cur + max (min (y1 - x1) (y2 - x2)) step = next at *
  cases cap with
  | zero => omega
  | succ cap =>
    simp only
    by_cases hgt : next > maxt
    · rw [if_pos hgt]
      exact ⟨[cur], rfl, Grid.next _ _ _ hlt hfol (Grid.stop _ (le_of_lt hgt))⟩
    · rw [if_neg hgt]
      obtain ⟨out, h1, h2⟩ := ih cap (by omega) (acc ++ [cur]) next J1 J2
        (le_of_lt (lt_of_le_of_lt hc1 hpos)) (le_of_lt (lt_of_le_of_lt hc2 hpos))
        (by simp; omega) (by
          right
          refine ⟨hJ1, hJl1, ?_, hJ2, hJl2, ?_, ?_⟩
          · intro x hx
            rw [hx1] at hx; simp at hx; subst hx
            rcases hleft1 with h | ⟨_, h⟩
            · exact h.trans hpos
            · rw [h]; exact hpos
          · intro x hx
            rw [hx2] at hx; simp at hx; subst hx
            rcases hleft2 with h | ⟨_, h⟩
            · exact h.trans hpos
            · rw [h]; exact hpos
          · simp only [List.length_append, List.length_singleton]
            by_cases hbig : acc.length + 1 + 1 ≤ J1 + J2
            · exact Or.inl hbig
            · right
              refine ⟨hsum, ?_⟩
              -- then this is not the first pass, so both left ends are strictly below `cur`
              have hx1' : x1 < cur := by
                rcases hinv with ⟨h, _, _⟩ | h
                · subst h; simp at hbig; omega
                · rcases hor1 with h' | h'
                  · exact h'
                  · apply h.p1
                    have := h.h1
                    rw [show I1 = J1 by omega]; exact hx1
              have hx2' : x2 < cur := by
                rcases hinv with ⟨h, _, _⟩ | h
                · subst h; simp at hbig; omega
                · rcases hor2 with h' | h'
                  · exact h'
                  · apply h.p2
                    have := h.h2
                    rw [show I2 = J2 by omega]; exact hx2
              have hstep : cur + min (y1 - x1) (y2 - x2) ≤ next := by
                rw [← hnext]; exact add_le_add_right (le_max_left _ _) _
              rcases le_total (y1 - x1) (y2 - x2) with hle | hle
              · left
                refine ⟨y1, hy1, lt_of_lt_of_le ?_ hstep⟩
                rw [min_eq_left hle]
                calc y1 = x1 + (y1 - x1) := by abel
                  _ < cur + (y1 - x1) := by exact add_lt_add_left hx1' _
              · right
                refine ⟨y2, hy2, lt_of_lt_of_le ?_ hstep⟩
                rw [min_eq_right hle]
                calc y2 = x2 + (y2 - x2) := by abel
                  _ < cur + (y2 - x2) := by exact add_lt_add_left hx2' _)
      refine ⟨cur :: out, ?_, Grid.next _ _ _ hlt hfol h2⟩
      rw [h1]; simp

theorem npMin_spec (l : List α) (hl : l ≠ []) :
    ∃ m, npMin l = .ok m ∧ m ∈ l ∧ ∀ x ∈ l, m ≤ x := by
  cases l with
  | nil => exact absurd rfl hl
  | cons a l =>
    refine ⟨l.foldl min a, rfl, ?_⟩
    clear hl
    induction l generalizing a with
    | nil => simp
    | cons b l ih =>
      obtain ⟨h1, h2⟩ := ih (min a b)
      simp only [List.foldl_cons]
      constructor
      · rcases List.mem_cons.mp h1 with h | h
        · rw [h]
          rcases min_choice a b with h | h <;> rw [h] <;> simp
        · simp [h]
      · intro x hx
        have h0 := h2 (min a b) (by simp)
        rcases List.mem_cons.mp hx with rfl | hx
        · exact h0.trans (min_le_left _ _)
        · rcases List.mem_cons.mp hx with rfl | hx
          · exact h0.trans (min_le_right _ _)
          · exact h2 x (by simp [hx])

theorem mem_diff (ts : List α) (d : α) : d ∈ diff ts ↔ IsSpacing ts d := by
  induction ts with
  | nil => simp [diff, IsSpacing]
  | cons a l ih =>
    cases l with
    | nil =>
      simp only [diff, List.not_mem_nil, false_iff]
      rintro ⟨j, x, y, _, h, _⟩
      simp at h
    | cons b l =>
      simp only [diff, List.mem_cons, ih]
      constructor
      · rintro (rfl | ⟨j, x, y, h1, h2, h3⟩)
        · exact ⟨0, a, b, by simp, by simp, rfl⟩
        · exact ⟨j + 1, x, y, by simpa using h1, by simpa using h2, h3⟩
      · rintro ⟨j, x, y, h1, h2, h3⟩
        cases j with
        | zero => left; simp at h1 h2; rw [h3, h1, h2]
        | succ j => right; exact ⟨j, x, y, by simpa using h1, by simpa using h2, h3⟩

theorem diff_ne_nil (ts : List α) (h : 2 ≤ ts.length) : diff ts ≠ [] := by
  match ts, h with
  | _ :: _ :: _, _ => simp [diff]

theorem spacing_isSpacing {ts : List α} {t d : α} (h : LocalSpacing ts t d) : IsSpacing ts d := by
  obtain ⟨j, x, y, h1, h2, h3, _⟩ := h
  exact ⟨j, x, y, h1, h2, h3⟩

theorem isSpacing_pos {ts : List α} (hs : ts.Pairwise (· < ·)) {d : α} (h : IsSpacing ts d) :
    0 < d := by
  obtain ⟨j, x, y, h1, h2, h3⟩ := h
  rw [h3]; exact sub_pos.mpr (sorted_lt hs h1 h2 (by omega))

theorem follows_lt {t1 t2 : List α} (hs1 : t1.Pairwise (· < ·)) (hs2 : t2.Pairwise (· < ·))
    {step t t' : α} (h : Follows t1 t2 step t t') : t < t' := by
  obtain ⟨d1, d2, h1, h2, h3⟩ := h
  rw [h3]
  apply lt_add_of_pos_right
  exact lt_of_lt_of_le (lt_min (isSpacing_pos hs1 (spacing_isSpacing h1))
    (isSpacing_pos hs2 (spacing_isSpacing h2))) (le_max_left _ _)

theorem localSpacing_unique {ts : List α} (hs : ts.Pairwise (· < ·)) {t d d' : α}
    (h : LocalSpacing ts t d) (h' : LocalSpacing ts t d') : d = d' := by
  obtain ⟨j, x, y, h1, h2, h3, h4, h5⟩ := h
  obtain ⟨j', x', y', h1', h2', h3', h4', h5'⟩ := h'
  have hle : x ≤ t := by rcases h4 with h | ⟨_, h⟩; exact le_of_lt h; exact le_of_eq h
  have hle' : x' ≤ t := by rcases h4' with h | ⟨_, h⟩; exact le_of_lt h; exact le_of_eq h
  have key : j = j' := by
    rcases Nat.lt_trichotomy j j' with h | h | h
    · exfalso
      have hyx : y ≤ x' := by
        rcases Nat.lt_or_eq_of_le (show j + 1 ≤ j' from h) with hh | hh
        · exact le_of_lt (sorted_lt hs h2 h1' hh)
        · rw [hh, h1'] at h2; simp at h2; exact le_of_eq h2.symm
      rcases h4' with h' | ⟨h', _⟩
      · exact absurd (lt_of_le_of_lt (h5.trans hyx) h') (lt_irrefl _)
      · omega
    · exact h
    · exfalso
      have hyx : y' ≤ x := by
        rcases Nat.lt_or_eq_of_le (show j' + 1 ≤ j from h) with hh | hh
        · exact le_of_lt (sorted_lt hs h2' h1 hh)
        · rw [hh, h1] at h2'; simp at h2'; exact le_of_eq h2'.symm
      rcases h4 with h' | ⟨h', _⟩
      · exact absurd (lt_of_le_of_lt (h5'.trans hyx) h') (lt_irrefl _)
      · omega
  subst key
  rw [h1] at h1'; rw [h2] at h2'
  simp at h1' h2'
  rw [h3, h3', h1', h2']

theorem grid_bounds {t1 t2 : List α} (hs1 : t1.Pairwise (· < ·)) (hs2 : t2.Pairwise (· < ·))
    {step maxt t : α} {out : List α} (h : Grid t1 t2 step maxt t out) :
    out.Pairwise (· < ·) ∧ (∀ x ∈ out, t ≤ x ∧ x < maxt) ∧ (out = [] ↔ maxt ≤ t) ∧
      (t < maxt → out.head? = some t) := by
  induction h with
  | stop t h => simp [h, not_lt.mpr h]
  | next t t' out h hf hr ih =>
    obtain ⟨i1, i2, i3, i4⟩ := ih
    have hlt := follows_lt hs1 hs2 hf
    refine ⟨List.pairwise_cons.mpr ⟨fun x hx => lt_of_lt_of_le hlt (i2 x hx).1, i1⟩, ?_, ?_, ?_⟩
    · intro x hx
      rcases List.mem_cons.mp hx with rfl | hx
      · exact ⟨le_refl _, h⟩
      · exact ⟨(le_of_lt hlt).trans (i2 x hx).1, (i2 x hx).2⟩
    · simp [h]
    · simp

theorem grid_unique {t1 t2 : List α} (hs1 : t1.Pairwise (· < ·)) (hs2 : t2.Pairwise (· < ·))
    {step maxt t : α} {out out' : List α} (h : Grid t1 t2 step maxt t out)
    (h' : Grid t1 t2 step maxt t out') : out = out' := by
  induction h generalizing out' with
  | stop t h =>
    cases h' with
    | stop _ _ => rfl
    | next _ _ _ h2 => exact absurd h2 (not_lt.mpr h)
  | next t t' out h hf hr ih =>
    cases h' with
    | stop _ h2 => exact absurd h (not_lt.mpr h2)
    | next _ t'' out'' _ hf' hr' =>
      obtain ⟨d1, d2, a1, a2, a3⟩ := hf
      obtain ⟨e1, e2, b1, b2, b3⟩ := hf'
      rw [localSpacing_unique hs1 a1 b1, localSpacing_unique hs2 a2 b2, ← b3] at a3
      subst a3
      rw [ih hr']

end Verif.Intersection
