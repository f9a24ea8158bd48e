import Verif.Props.PairedXor

/-!
# C44: damage to the bits of one of the stored numbers
-/

namespace Verif.Props.PairedBits
open Verif Verif.PairedXor Verif.Xor Verif.Spec.Xor Verif.Props.Xor Verif.Props.PairedXor

/-- The bits from `16 k` on. -/
def quarter (w : BitVec 64) (k : Nat) : Nat := (w.extractLsb' (16 * k) 16).toNat

theorem words_eq (u : List Row) : words16 u = u.flatten.flatMap fun w => [quarter w 0, quarter w 1, quarter w 2, quarter w 3] := by
  unfold words16
  congr 1
  funext w
  have h := w.isLt
  unfold quarter
  simp only [BitVec.extractLsb'_toNat, Nat.shiftRight_eq_div_pow]
  refine congrArg₂ _ (by simp) (congrArg₂ _ (by simp) (congrArg₂ _ (by simp) (congrArg₂ _ ?_ rfl)))
  rw [Nat.mod_eq_of_lt]
  show w.toNat / 2 ^ 48 < 2 ^ 16
  omega

theorem quarter_congr {d e : BitVec 64} {k : Nat} (h : ∀ j, j < 64 → j / 16 = k → d.getLsbD j = e.getLsbD j) : quarter d k = quarter e k := by
  unfold quarter
  congr 1
  apply BitVec.eq_of_getLsbD_eq
  intro i hi
  rw [BitVec.getLsbD_extractLsb', BitVec.getLsbD_extractLsb']
  by_cases hj : 16 * k + i < 64
  · rw [h (16 * k + i) hj (by omega)]
  · rw [BitVec.getLsbD_of_ge d _ (by omega), BitVec.getLsbD_of_ge e _ (by omega)]

theorem quarter_inj {d e : BitVec 64} {k : Nat} (h : quarter d k = quarter e k) : ∀ j, j < 64 → j / 16 = k → d.getLsbD j = e.getLsbD j := by
  intro j h1 h2
  have h := BitVec.eq_of_toNat_eq h
  have := congrArg (fun v => v.getLsbD (j - 16 * k)) h
  simp only [BitVec.getLsbD_extractLsb'] at this
  have e1 : 16 * k + (j - 16 * k) = j := by omega
  have e2 : decide (j - 16 * k < 16) = true := by simp; omega
  rw [e1, e2] at this
  simpa using this

theorem quarter_zero {d : BitVec 64} {k : Nat} (h : quarter d k = 0) : ∀ j, j < 64 → j / 16 = k → d.getLsbD j = false := by
  intro j h1 h2
  have z : quarter 0#64 k = 0 := by simp [quarter]
  have := quarter_inj (h.trans z.symm) j h1 h2
  simpa using this

theorem quarter_ones {d : BitVec 64} {k : Nat} (hk : k < 4) (h : quarter d k = 65535) : ∀ j, j < 64 → j / 16 = k → d.getLsbD j = true := by
  intro j h1 h2
  have z : quarter (BitVec.allOnes 64) k = 65535 := by
    interval_cases k <;> decide
  have := quarter_inj (h.trans z.symm) j h1 h2
  rw [this, BitVec.getLsbD_allOnes]
  simpa using h1

variable {Q T : Type} [DecidableEq T] [Zero T]

/-- C44: if one of the stored numbers of the modes is changed, in one or more of the 16 bits of one of its quarters, `load` does not return anything, unless all the bits of the quarter were off and are on now, or the other way
around. -/
theorem bits_noticed (A : Arith Q T) (w : Wave Q) (tol : T) (lf : Option (List Row)) (n : Nat) (f : Files) (hs : save A w tol lf n = .ok f) (modes' : List Row) (x y : List (BitVec 64)) (d e : BitVec 64)
    (hd : f.h5.modes.flatten = x ++ d :: y) (he : modes'.flatten = x ++ e :: y) (k : Nat) (hk : k < 4) (hsame : ∀ j, j < 64 → j / 16 ≠ k → d.getLsbD j = e.getLsbD j) (hne : d ≠ e)
    (h1 : ¬ ∀ j, j < 64 → j / 16 = k → d.getLsbD j = false ∧ e.getLsbD j = true) (h2 : ¬ ∀ j, j < 64 → j / 16 = k → d.getLsbD j = true ∧ e.getLsbD j = false) (v : Wave Q) :
    load A { f with h5 := { f.h5 with modes := modes' } } false ≠ .ok v := by
  have hq : quarter d k ≠ quarter e k := by
    intro h
    apply hne
    apply BitVec.eq_of_getLsbD_eq
    intro j hj
    by_cases hjk : j / 16 = k
    · exact quarter_inj h j hj hjk
    · exact hsame j hj hjk
  have g1 : ¬ (quarter d k = 0 ∧ quarter e k = 65535) := fun h => h1 fun j hj hjk => ⟨quarter_zero h.1 j hj hjk, quarter_ones hk h.2 j hj hjk⟩
  have g2 : ¬ (quarter d k = 65535 ∧ quarter e k = 0) := fun h => h2 fun j hj hjk => ⟨quarter_ones hk h.1 j hj hjk, quarter_zero h.2 j hj hjk⟩
  have other : ∀ k', k' ≠ k → quarter e k' = quarter d k' := fun k' hk' => (quarter_congr fun j hj hjk => hsame j hj (by omega)).symm
  set F : BitVec 64 → List Nat := fun w => [quarter w 0, quarter w 1, quarter w 2, quarter w 3] with hF
  have ed : words16 f.h5.modes = x.flatMap F ++ (F d ++ y.flatMap F) := by rw [words_eq, hd, List.flatMap_append, List.flatMap_cons]
  have ee : words16 modes' = x.flatMap F ++ (F e ++ y.flatMap F) := by rw [words_eq, he, List.flatMap_append, List.flatMap_cons]
  interval_cases k
  · exact corruption_noticed A w tol lf n f hs modes' (x.flatMap F) (quarter d 1 :: quarter d 2 :: quarter d 3 :: y.flatMap F) _ _ (by rw [ed]; rfl)
      (by rw [ee]; simp only [hF, other 1 (by decide), other 2 (by decide), other 3 (by decide)]; rfl) hq g1 g2 v
  · exact corruption_noticed A w tol lf n f hs modes' (x.flatMap F ++ [quarter d 0]) (quarter d 2 :: quarter d 3 :: y.flatMap F) _ _ (by rw [ed]; simp [hF])
      (by rw [ee]; simp [hF, other 0, other 2, other 3]) hq g1 g2 v
  · exact corruption_noticed A w tol lf n f hs modes' (x.flatMap F ++ [quarter d 0, quarter d 1]) (quarter d 3 :: y.flatMap F) _ _ (by rw [ed]; simp [hF])
      (by rw [ee]; simp [hF, other 0, other 1, other 3]) hq g1 g2 v
  · exact corruption_noticed A w tol lf n f hs modes' (x.flatMap F ++ [quarter d 0, quarter d 1, quarter d 2]) (y.flatMap F) _ _ (by rw [ed]; simp [hF])
      (by rw [ee]; simp [hF, other 0, other 1, other 2]) hq g1 g2 v

/-- C44: a flip of a single bit of the modes is noticed. -/
theorem bit_flip_noticed (A : Arith Q T) (w : Wave Q) (tol : T) (lf : Option (List Row)) (n : Nat) (f : Files) (hs : save A w tol lf n = .ok f) (modes' : List Row) (x y : List (BitVec 64)) (d e : BitVec 64)
    (hd : f.h5.modes.flatten = x ++ d :: y) (he : modes'.flatten = x ++ e :: y) (i : Nat) (hi : i < 64) (hflip : ∀ j, j < 64 → e.getLsbD j = if j = i then !d.getLsbD j else d.getLsbD j) (v : Wave Q) :
    load A { f with h5 := { f.h5 with modes := modes' } } false ≠ .ok v := by
  obtain ⟨j, hj, hjk, hji⟩ : ∃ j, j < 64 ∧ j / 16 = i / 16 ∧ j ≠ i := by
    by_cases h : i % 16 = 0
    · exact ⟨i + 1, by omega, by omega, by omega⟩
    · exact ⟨i - 1, by omega, by omega, by omega⟩
  have hsame := hflip j hj
  rw [if_neg hji] at hsame
  refine bits_noticed A w tol lf n f hs modes' x y d e hd he (i / 16) (by omega) (fun j hj hjk => ?_) (fun h => ?_) (fun h => ?_) (fun h => ?_) v
  · rw [hflip j hj, if_neg (by rintro rfl; exact hjk rfl)]
  · have := hflip i hi
    rw [if_pos rfl, ← h] at this
    cases hb : d.getLsbD i <;> simp [hb] at this
  · obtain ⟨a, b⟩ := h j hj hjk
    rw [hsame, a] at b
    cases b
  · obtain ⟨a, b⟩ := h j hj hjk
    rw [hsame, a] at b
    cases b

/-- The hypotheses are met: a file that was saved, and its first number of the modes with its lowest bit flipped. -/
example : ∃ f d y, save caseArith caseWave 3 none 100 = .ok f ∧ f.h5.modes.flatten = [] ++ d :: y ∧ [(d ^^^ 1#64) :: y].flatten = [] ++ (d ^^^ 1#64) :: y ∧
    ∀ j, j < 64 → (d ^^^ 1#64).getLsbD j = if j = 0 then !d.getLsbD j else d.getLsbD j := by
  obtain ⟨f, h1, -⟩ := round_trip_partial caseArith case_shapes caseWave 2 (by unfold Rect; decide) (by unfold Rect; decide) rfl (by decide) (by decide) 3 (by decide) none (by simp) 100
  have hf : f.h5.modes.flatten ≠ [] := by
    have h2 : (save caseArith caseWave 3 none 100).toOption.map (fun f => f.h5.modes.flatten.isEmpty) = some false := by decide +kernel
    rw [h1] at h2
    intro h
    simp [Except.toOption, h] at h2
  obtain ⟨d, y, e⟩ := List.exists_cons_of_ne_nil hf
  refine ⟨f, d, y, h1, e, by simp, fun j hj => ?_⟩
  rw [BitVec.getLsbD_xor, BitVec.getLsbD_one]
  by_cases h : j = 0
  · subst h; simp
  · simp [h]

end Verif.Props.PairedBits
