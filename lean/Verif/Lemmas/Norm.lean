import Verif.Model.Norm

namespace Verif.Norm

theorem foldl_add_eq (r : List ℂ) (a : ℝ) :
    r.foldl (fun s z => s + (z.re ^ 2 + z.im ^ 2)) a = a + (r.map fun z => ‖z‖ ^ 2).sum := by
  induction r generalizing a with
  | nil => simp
  | cons z r ih =>
    rw [List.foldl_cons, ih, List.map_cons, List.sum_cons, ← Complex.normSq_eq_norm_sq,
      Complex.normSq_apply]
    ring

theorem rowNorm_eq (r : List ℂ) : rowNorm r = (r.map fun z => ‖z‖ ^ 2).sum := by
  unfold rowNorm; rw [foldl_add_eq, zero_add]

/-- Invariant of the argmax loop: `pre` are the entries already seen. -/
theorem argmaxFrom_spec {α : Type} [LinearOrder α] (pre l : List α) (best : α) (bi : Nat)
    (hb : pre[bi]? = some best) (hmax : ∀ j : Nat, ∀ x, pre[j]? = some x → x ≤ best)
    (hfirst : ∀ j : Nat, j < bi → ∀ x, pre[j]? = some x → x < best) :
    ∃ y, (pre ++ l)[argmaxFrom best bi pre.length l]? = some y ∧
      (∀ (j : Nat) x, (pre ++ l)[j]? = some x → x ≤ y) ∧
      (∀ (j : Nat), j < argmaxFrom best bi pre.length l → ∀ x, (pre ++ l)[j]? = some x → x < y) := by
  induction l generalizing pre best bi with
  | nil => exact ⟨best, by simpa [argmaxFrom] using hb, by simpa using hmax, by simpa [argmaxFrom] using hfirst⟩
  | cons a l ih =>
    have hbi : bi < pre.length := (List.getElem?_eq_some_iff.mp hb).1
    have e : pre ++ a :: l = (pre ++ [a]) ++ l := by simp
    have el : pre.length + 1 = (pre ++ [a]).length := by simp
    have hold : ∀ (j : Nat) x, (pre ++ [a])[j]? = some x → pre[j]? = some x ∨ (j = pre.length ∧ x = a) := by
      intro j x h
      rcases Nat.lt_trichotomy j pre.length with hj | hj | hj
      · rw [List.getElem?_append_left hj] at h; exact Or.inl h
      · subst hj; simp at h; exact Or.inr ⟨rfl, h.symm⟩
      · rw [List.getElem?_eq_none (by simp; omega)] at h; cases h
    unfold argmaxFrom
    split
    · rename_i hlt
      rw [e, el]
      apply ih (pre ++ [a]) a pre.length (by simp)
      · intro j x h
        rcases hold j x h with h | ⟨-, rfl⟩
        · exact le_trans (hmax j x h) (le_of_lt hlt)
        · exact le_refl _
      · intro j hj x h
        rcases hold j x h with h | ⟨h, -⟩
        · exact lt_of_le_of_lt (hmax j x h) hlt
        · omega
    · rename_i hle
      rw [e, el]
      apply ih (pre ++ [a]) best bi (by rw [List.getElem?_append_left hbi]; exact hb)
      · intro j x h
        rcases hold j x h with h | ⟨-, rfl⟩
        · exact hmax j x h
        · exact not_lt.mp hle
      · intro j hj x h
        rcases hold j x h with h | ⟨h, -⟩
        · exact hfirst j hj x h
        · omega

theorem argmax_spec {α : Type} [LinearOrder α] (l : List α) (hl : l ≠ []) :
    ∃ i y, argmax l = .ok i ∧ l[i]? = some y ∧ (∀ (j : Nat) x, l[j]? = some x → x ≤ y) ∧
      (∀ j : Nat, j < i → ∀ x, l[j]? = some x → x < y) := by
  cases l with
  | nil => exact absurd rfl hl
  | cons a l =>
    obtain ⟨y, h1, h2, h3⟩ := argmaxFrom_spec [a] l a 0 rfl
      (by intro j x h; cases j with
          | zero => simp at h; exact h ▸ le_refl _
          | succ j => simp at h)
      (by intro j hj; omega)
    exact ⟨_, y, rfl, h1, h2, h3⟩

end Verif.Norm
