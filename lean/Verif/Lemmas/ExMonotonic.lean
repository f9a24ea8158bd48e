import Verif.Model.Monotonic
import Mathlib.Algebra.Order.Group.Defs
import Mathlib.Algebra.Order.Group.Unbundled.Basic
import Mathlib.Tactic.Set
import Mathlib.Data.List.Basic

set_option linter.unusedSectionVars false

namespace Verif.Monotonic
variable {α : Type} [LinearOrder α] [AddCommGroup α] [IsOrderedAddMonoid α]

/-- steps larger than `m` -/
abbrev Good (T : Nat → α) (m : α) (A : List Nat) : Prop :=
  A.Pairwise fun a b => T a + m < T b

theorem getD_append_cons (A R : List Nat) (p : Nat) : (A ++ p :: R).getD A.length 0 = p := by
  simp

theorem prev_append (A R : List Nat) (p : Nat) (hA : A ≠ []) :
    (A ++ p :: R).getD (A.length - 1) 0 = A.getLast hA := by
  have hpos : 0 < A.length := List.length_pos_iff.mpr hA
  rw [List.getD_eq_getElem?_getD, List.getElem?_append_left (by omega),
    List.getElem?_eq_getElem (by omega), Option.getD_some, List.getLast_eq_getElem]

/-- On a good list the scan for `j` splits off the part that survives. -/
theorem findIdx_good (T : Nat → α) (m : α) (A R : List Nat) (p : Nat) (hA : Good T m A)
    (hm : 0 ≤ m) :
    (A ++ p :: R).findIdx (fun x => ! decide (T x + m < T p)) =
      (A.filter fun x => decide (T x + m < T p)).length ∧
    (A ++ p :: R).take ((A.filter fun x => decide (T x + m < T p)).length) =
      A.filter fun x => decide (T x + m < T p) := by
  induction A with
  | nil =>
    have : ¬ T p + m < T p := by
      rw [not_lt]; exact le_add_of_nonneg_right hm
    simp [List.findIdx_cons, this]
  | cons a A ih =>
    obtain ⟨ha, hA'⟩ := List.pairwise_cons.mp hA
    obtain ⟨h1, h2⟩ := ih hA'
    by_cases hap : T a + m < T p
    · simp only [List.cons_append, List.findIdx_cons, hap, decide_true, Bool.not_true, cond_false,
        List.filter_cons_of_pos, List.length_cons, List.take_succ_cons]
      exact ⟨by rw [h1], by rw [h2]⟩
    · have hf : A.filter (fun x => decide (T x + m < T p)) = [] := by
        rw [List.filter_eq_nil_iff]
        intro x hx
        have h3 := ha x hx
        have h4 : T p ≤ T a + m := not_lt.mp hap
        have h5 : T x ≤ T x + m := le_add_of_nonneg_right hm
        simp only [decide_eq_true_eq, not_lt]
        exact le_trans h4 (le_trans (le_of_lt h3) h5)
      simp [List.findIdx_cons, hap, hf]

theorem filter_good_append (T : Nat → α) (m : α) (A : List Nat) (p : Nat) (hA : Good T m A) :
    Good T m (A.filter (fun x => decide (T x + m < T p)) ++ [p]) := by
  rw [Good, List.pairwise_append]
  refine ⟨hA.sublist List.filter_sublist, List.pairwise_singleton _ _, ?_⟩
  intro a ha b hb
  rw [List.mem_singleton] at hb
  subst hb
  simpa using (List.mem_filter.mp ha).2

/-- one pass when the new sample is too early -/
theorem passBody_back (T : Nat → α) (m : α) (A R : List Nat) (p : Nat) (hA : Good T m A)
    (hm : 0 ≤ m) (hne : A ≠ []) (h : T p ≤ T (A.getLast hne) + m) :
    passBody T m (A ++ p :: R) A.length =
      (A.filter (fun x => decide (T x + m < T p)) ++ p :: R,
        (A.filter fun x => decide (T x + m < T p)).length) := by
  have hpos : 0 < A.length := List.length_pos_iff.mpr hne
  obtain ⟨h1, h2⟩ := findIdx_good T m A R p hA hm
  unfold passBody innerJ
  simp only [getD_append_cons, if_neg (Nat.ne_of_gt hpos), prev_append A R p hne, if_pos h]
  rw [h1, h2, Nat.max_eq_left (List.length_filter_le _ _)]
  simp

theorem passBody_fwd (T : Nat → α) (m : α) (A R : List Nat) (p : Nat) (hne : A ≠ [])
    (h : ¬ T p ≤ T (A.getLast hne) + m) :
    passBody T m (A ++ p :: R) A.length = (A ++ p :: R, A.length + 1) := by
  have hpos : 0 < A.length := List.length_pos_iff.mpr hne
  unfold passBody
  simp only [getD_append_cons, if_neg (Nat.ne_of_gt hpos), prev_append A R p hne, if_neg h]

theorem loop_succ (T : Nat → α) (m : α) (fuel : Nat) (Ind : List Nat) (i : Nat)
    (h : i < Ind.length) :
    loop T m (fuel + 1) Ind i = loop T m fuel (passBody T m Ind i).1 (passBody T m Ind i).2 := by
  rw [loop, if_pos h]

theorem loop_zero (T : Nat → α) (m : α) (Ind : List Nat) (i : Nat)
    (h : i < Ind.length) : loop T m 0 Ind i = none := by
  rw [loop, if_pos h]

theorem loop_done (T : Nat → α) (m : α) (fuel : Nat) (Ind : List Nat) (i : Nat)
    (h : ¬ i < Ind.length) : loop T m fuel Ind i = some Ind := by
  cases fuel <;> rw [loop, if_neg h]

/-- all of a good list precedes the new sample if its last entry does -/
theorem good_all_lt (T : Nat → α) (m : α) (A : List Nat) (p : Nat) (hA : Good T m A)
    (hm : 0 ≤ m) (hne : A ≠ []) (h : T (A.getLast hne) + m < T p) :
    ∀ a ∈ A, T a + m < T p := by
  intro a ha
  have e := List.dropLast_append_getLast hne
  rw [← e] at ha
  rcases List.mem_append.mp ha with h1 | h1
  · have hp : Good T m (A.dropLast ++ [A.getLast hne]) := by rw [e]; exact hA
    have := (List.pairwise_append.mp hp).2.2 a h1 (A.getLast hne) (by simp)
    exact lt_trans this (lt_of_le_of_lt (le_add_of_nonneg_right hm) h)
  · rw [List.mem_singleton] at h1; rw [h1]; exact h

/-- Two passes at most take the next sample in. -/
theorem loop_advance (T : Nat → α) (m : α) (A R : List Nat) (p : Nat) (hA : Good T m A)
    (hm : 0 ≤ m) (hne : A ≠ []) (hhead : T (A.head hne) + m < T p) :
    ∃ k, k ≤ 2 ∧ ∀ fuel, loop T m (fuel + k) (A ++ p :: R) A.length =
      loop T m fuel ((A.filter (fun x => decide (T x + m < T p)) ++ [p]) ++ R)
        (A.filter (fun x => decide (T x + m < T p)) ++ [p]).length := by
  by_cases h : T p ≤ T (A.getLast hne) + m
  · refine ⟨2, le_rfl, fun fuel => ?_⟩
    set A' := A.filter fun x => decide (T x + m < T p) with hA'
    have hne' : A' ≠ [] := by
      have : A.head hne ∈ A' := by
        rw [hA', List.mem_filter]
        exact ⟨List.head_mem hne, by simpa using hhead⟩
      exact List.ne_nil_of_mem this
    have hnb : ¬ T p ≤ T (A'.getLast hne') + m := by
      rw [not_le]
      have := List.getLast_mem hne'
      have h2 : A'.getLast hne' ∈ A.filter fun x => decide (T x + m < T p) := this
      simpa using (List.mem_filter.mp h2).2
    rw [show fuel + 2 = (fuel + 1) + 1 from rfl, loop_succ _ _ _ _ _ (by simp),
      passBody_back T m A R p hA hm hne h]
    simp only
    rw [loop_succ _ _ _ _ _ (by simp), passBody_fwd T m A' R p hne' hnb]
    simp
  · refine ⟨1, by omega, fun fuel => ?_⟩
    rw [loop_succ _ _ _ _ _ (by simp), passBody_fwd T m A R p hne h]
    have hall := good_all_lt T m A p hA hm hne (not_le.mp h)
    have hf : A.filter (fun x => decide (T x + m < T p)) = A := by
      rw [List.filter_eq_self]; intro a ha; simpa using hall a ha
    rw [hf]; simp

theorem loop_mono (T : Nat → α) (m : α) (fuel : Nat) (Ind : List Nat) (i : Nat) (r : List Nat)
    (h : loop T m fuel Ind i = some r) (k : Nat) : loop T m (fuel + k) Ind i = some r := by
  induction fuel generalizing Ind i with
  | zero =>
    by_cases hi : i < Ind.length
    · rw [loop_zero _ _ _ _ hi] at h; cases h
    · rw [loop_done _ _ _ _ _ hi] at h ⊢; exact h
  | succ fuel ih =>
    by_cases hi : i < Ind.length
    · rw [loop_succ _ _ _ _ _ hi] at h
      rw [show fuel + 1 + k = (fuel + k) + 1 by omega, loop_succ _ _ _ _ _ hi]
      exact ih _ _ h
    · rw [loop_done _ _ _ _ _ hi] at h ⊢; exact h

/-- survivors among the first `p` samples -/
def survivors (T : Nat → α) (m : α) (p : Nat) : List Nat :=
  (List.range p).filter fun k => decide (∀ l, l < p → k < l → T k + m < T l)

theorem survivors_succ (T : Nat → α) (m : α) (p : Nat) :
    survivors T m (p + 1) = (survivors T m p).filter (fun x => decide (T x + m < T p)) ++ [p] := by
  unfold survivors
  rw [List.range_succ, List.filter_append, List.filter_filter]
  congr 1
  · apply List.filter_congr
    intro x hx
    rw [List.mem_range] at hx
    rw [Bool.eq_iff_iff]
    simp only [decide_eq_true_eq, Bool.and_eq_true]
    constructor
    · intro h
      exact ⟨h p (by omega) hx, fun l hl hxl => h l (by omega) hxl⟩
    · rintro ⟨h1, h2⟩ l hl hxl
      by_cases e : l = p
      · subst e; exact h1
      · exact h2 l (by omega) hxl
  · rw [List.filter_cons_of_pos]
    · rfl
    · simp only [decide_eq_true_eq]
      intro l hl hpl; omega

theorem survivors_good (T : Nat → α) (m : α) (p : Nat) : Good T m (survivors T m p) := by
  induction p with
  | zero => simp [survivors]
  | succ p ih => rw [survivors_succ]; exact filter_good_append T m _ p ih

theorem survivors_head (T : Nat → α) (m : α) (p : Nat) (hp : 0 < p)
    (h : ∀ k, 0 < k → k < p → T 0 + m < T k) :
    ∃ l, survivors T m p = 0 :: l := by
  unfold survivors
  obtain ⟨q, rfl⟩ : ∃ q, p = q + 1 := ⟨p - 1, by omega⟩
  rw [List.range_succ_eq_map, List.filter_cons_of_pos]
  · exact ⟨_, rfl⟩
  · simp only [decide_eq_true_eq]
    intro l hl h0; exact h l h0 hl

theorem loop_survivors (T : Nat → α) (m : α) (hm : 0 ≤ m) (n : Nat)
    (h : ∀ k, 0 < k → k < n → T 0 + m < T k) (d p : Nat) (hp : 0 < p) (hd : p + d = n) :
    ∃ fuel, fuel ≤ 2 * d ∧ loop T m fuel (survivors T m p ++ List.range' p d)
      (survivors T m p).length = some (survivors T m n) := by
  induction d generalizing p with
  | zero =>
    refine ⟨0, le_rfl, ?_⟩
    rw [loop_done _ _ _ _ _ (by simp)]
    simp at hd; subst hd; simp
  | succ d ih =>
    obtain ⟨l, hl⟩ := survivors_head T m p hp (fun k h0 hk => h k h0 (by omega))
    have hne : survivors T m p ≠ [] := by rw [hl]; simp
    have hhead : T ((survivors T m p).head hne) + m < T p := by
      have : (survivors T m p).head hne = 0 := by simp [hl]
      rw [this]; exact h p hp (by omega)
    obtain ⟨k, hk, hadv⟩ := loop_advance T m (survivors T m p) (List.range' (p + 1) d) p
      (survivors_good T m p) hm hne hhead
    obtain ⟨fuel, hf, hfl⟩ := ih (p + 1) (by omega) (by omega)
    refine ⟨fuel + k, by omega, ?_⟩
    rw [List.range'_succ, hadv fuel, ← survivors_succ]
    exact hfl

theorem loop_diverges (T : Nat → α) (m : α) (hm : 0 ≤ m) (fuel : Nat) :
    (∀ Ind : List Nat, Ind ≠ [] → loop T m fuel Ind 0 = none) ∧
    (∀ (A R : List Nat) (hne : A ≠ []), Good T m A → (∃ x ∈ R, T x ≤ T (A.head hne) + m) →
      loop T m fuel (A ++ R) A.length = none) := by
  induction fuel with
  | zero =>
    constructor
    · intro Ind hne
      exact loop_zero _ _ _ _ (List.length_pos_iff.mpr hne)
    · rintro A R hne hA ⟨x, hx, -⟩
      apply loop_zero
      have : 0 < R.length := List.length_pos_of_mem hx
      simp; omega
  | succ fuel ih =>
    obtain ⟨ih0, ih1⟩ := ih
    constructor
    · intro Ind hne
      rw [loop_succ _ _ _ _ _ (List.length_pos_iff.mpr hne)]
      obtain ⟨a, R, rfl⟩ : ∃ a R, Ind = a :: R := by
        cases Ind with
        | nil => exact absurd rfl hne
        | cons a R => exact ⟨a, R, rfl⟩
      have hlast : (a :: R).getD ((a :: R).length - 1) 0 = (a :: R).getLast hne := by
        rw [List.getLast_eq_getElem, List.getD_eq_getElem?_getD,
          List.getElem?_eq_getElem (by simp), Option.getD_some]
      unfold passBody innerJ
      simp only [if_true, List.getD_cons_zero, hlast]
      by_cases hc : T a ≤ T ((a :: R).getLast hne) + m
      · rw [if_pos hc]
        have hself : ¬ T a + m < T a := by
          rw [not_lt]; exact le_add_of_nonneg_right hm
        simp only [List.findIdx_cons, hself, decide_false, Bool.not_false, cond_true]
        simp only [List.take_zero, List.nil_append, Nat.max_self, List.drop_zero]
        exact ih0 _ hne
      · rw [if_neg hc]
        simp only
        have hR : R ≠ [] := by
          rintro rfl
          apply hc
          simp only [List.getLast_singleton]
          exact le_add_of_nonneg_right hm
        have := ih1 [a] R (by simp) (List.pairwise_singleton _ _) ⟨R.getLast hR, List.getLast_mem hR, by
          rw [List.getLast_cons hR] at hc
          simp only [List.head_cons]
          have h1 : T (R.getLast hR) + m < T a := not_le.mp hc
          exact le_trans (le_add_of_nonneg_right hm)
            (le_trans (le_of_lt h1) (le_add_of_nonneg_right hm))⟩
        simpa using this
    · rintro A R hne hA ⟨x, hx, hxv⟩
      obtain ⟨p, R, rfl⟩ : ∃ p R', R = p :: R' := by
        cases R with
        | nil => simp at hx
        | cons a R => exact ⟨a, R, rfl⟩
      rw [loop_succ _ _ _ _ _ (by simp)]
      by_cases hb : T p ≤ T (A.getLast hne) + m
      · rw [passBody_back T m A R p hA hm hne hb]
        simp only
        by_cases hA' : A.filter (fun x => decide (T x + m < T p)) = []
        · rw [hA']; exact ih0 _ (by simp)
        · refine ih1 _ (p :: R) hA' (hA.sublist List.filter_sublist) ⟨x, hx, ?_⟩
          have hhead : (A.filter fun x => decide (T x + m < T p)).head hA' = A.head hne := by
            cases A with
            | nil => exact absurd rfl hne
            | cons a A =>
              by_cases hap : T a + m < T p
              · simp [hap]
              · exfalso
                apply hA'
                rw [List.filter_eq_nil_iff]
                intro y hy
                simp only [decide_eq_true_eq, not_lt]
                rcases List.mem_cons.mp hy with rfl | hy
                · exact not_lt.mp hap
                · have h3 := (List.pairwise_cons.mp hA).1 y hy
                  exact le_trans (not_lt.mp hap) (le_trans (le_of_lt h3)
                    (le_add_of_nonneg_right hm))
          rw [hhead]; exact hxv
      · rw [passBody_fwd T m A R p hne hb]
        simp only
        have hall := good_all_lt T m A p hA hm hne (not_le.mp hb)
        have hx' : x ∈ R := by
          rcases List.mem_cons.mp hx with rfl | hx
          · exact absurd (hall _ (List.head_mem hne)) (not_lt.mpr hxv)
          · exact hx
        have := ih1 (A ++ [p]) R (by simp) (by
          have := filter_good_append T m A p hA
          rwa [List.filter_eq_self.mpr (by intro a ha; simpa using hall a ha)] at this)
          ⟨x, hx', by rw [List.head_append_of_ne_nil hne]; exact hxv⟩
        simpa using this

end Verif.Monotonic
