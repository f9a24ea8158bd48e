import Verif.Spec.Slicing
import Verif.Lemmas.Modes
import Mathlib.Data.List.Basic

namespace Verif.Slicing
open Verif.Modes Verif.Spec.Slicing
variable {τ Q K : Type}

theorem nCols_eq {W : WM τ Q K} (hW : Valid W) {i : Nat} {r : List K} (h : W.data[i]? = some r) :
    r.length = W.nCols := hW.cols r (List.mem_of_getElem? h)

/-- Time slicing without a column slice. -/
theorem sliceArrays_none (W : WM τ Q K) (hW : Valid W) (s : PySlice) (idx : List Nat)
    (h : s.positions W.t.length = .ok idx) :
    sliceArrays W (.slice s) none =
      .ok { W with t := gather W.t idx, frame := gather W.frame idx, data := gather W.data idx } := by
  unfold sliceArrays pySlice
  simp only [hW.frame, hW.rows, h, ok_bind, pure_eq_ok]

theorem sliceArrays_some (W : WM τ Q K) (hW : Valid W) (s c : PySlice) (idx cols : List Nat)
    (h : s.positions W.t.length = .ok idx) (hc : c.positions W.nCols = .ok cols) :
    sliceArrays W (.slice s) (some c) =
      .ok { W with t := gather W.t idx, frame := gather W.frame idx,
                   data := (gather W.data idx).map (gather · cols), nCols := cols.length } := by
  unfold sliceArrays pySlice
  simp only [hW.frame, hW.rows, h, hc, ok_bind, pure_eq_ok]

theorem bind_getElem?_none {α β : Type} {idx : List Nat} {l : List α} {f : α → Option β}
    (k : Nat) : ((idx[k]?.bind fun i => l[i]?).bind f) = idx[k]?.bind fun i => (l[i]?).bind f := by
  cases idx[k]? <;> rfl

/-- The column slice for `lo ≤ ell ≤ hi`. -/
theorem cols_spec (W : WM τ Q K) (hW : Valid W) (lo hi : Int) (h1 : W.ellMin ≤ lo) (h2 : lo - 1 ≤ hi)
    (h3 : hi ≤ W.ellMax) :
    ∃ a n : Nat, (a : Int) = lo ^ 2 - W.ellMin ^ 2 ∧ (n : Int) = (hi + 1) ^ 2 - lo ^ 2 ∧
      a + n ≤ W.nCols ∧
      (PySlice.mk (some (lo ^ 2 - W.ellMin ^ 2)) (some (hi * (hi + 2) + 1 - W.ellMin ^ 2)) none).positions
        W.nCols = .ok (List.range' a n) := by
  have hm := hW.min
  have hmodes := hW.modes
  have e1 : 0 ≤ lo ^ 2 - W.ellMin ^ 2 := by nlinarith
  have e2 : 0 ≤ (hi + 1) ^ 2 - lo ^ 2 := by nlinarith
  have e3 : (hi + 1) ^ 2 - W.ellMin ^ 2 ≤ W.nCols := by rw [hmodes]; nlinarith
  have e4 : hi * (hi + 2) + 1 - W.ellMin ^ 2 = (hi + 1) ^ 2 - W.ellMin ^ 2 := by ring
  refine ⟨(lo ^ 2 - W.ellMin ^ 2).toNat, ((hi + 1) ^ 2 - lo ^ 2).toNat, by omega, by omega,
    by omega, ?_⟩
  have := positions_nat W.nCols (lo ^ 2 - W.ellMin ^ 2).toNat ((hi + 1) ^ 2 - W.ellMin ^ 2).toNat
    (by omega) (by omega)
  rw [Int.toNat_of_nonneg e1, Int.toNat_of_nonneg (show 0 ≤ (hi + 1) ^ 2 - W.ellMin ^ 2 by omega)] at this
  rw [e4, this]
  congr 2
  omega

theorem restricted (W : WM τ Q K) (hW : Valid W) (s : PySlice) (idx : List Nat)
    (h : s.positions W.t.length = .ok idx) (lo hi : Int) (h1 : W.ellMin ≤ lo) (h2 : lo - 1 ≤ hi)
    (a n : Nat) (ha : (a : Int) = lo ^ 2 - W.ellMin ^ 2)
    (hn : (n : Int) = (hi + 1) ^ 2 - lo ^ 2) (hle : a + n ≤ W.nCols) :
    let V : WM τ Q K := { t := gather W.t idx, frame := gather W.frame idx,
                          data := (gather W.data idx).map (gather · (List.range' a n)), nCols := n,
                          ellMin := lo, ellMax := hi }
    Restricts W V idx lo hi ∧ Valid V := by
  intro V
  have hidx := positions_lt s _ _ h
  have hidx1 : ∀ i ∈ idx, i < W.frame.length := by rw [hW.frame]; exact hidx
  have hidx2 : ∀ i ∈ idx, i < W.data.length := by rw [hW.rows]; exact hidx
  have hm := hW.min
  constructor
  · refine ⟨hidx, fun k => getElem?_gather _ _ hidx k, fun k => getElem?_gather _ _ hidx1 k, rfl, rfl,
      ?_⟩
    intro k ell m hl1 hl2 hm1 hm2
    unfold modeAt
    show ((((gather W.data idx).map (gather · (List.range' a n)))[k]?).bind
      fun r => r[(lmIndex ell m lo).toNat]?) = _
    rw [List.getElem?_map, getElem?_gather _ _ hidx2]
    cases hk : idx[k]? with
    | none => rfl
    | some i =>
      simp only [Option.bind_some]
      cases hr : W.data[i]? with
      | none => rfl
      | some r =>
        simp only [Option.map_some, Option.bind_some]
        have hlen : r.length = W.nCols := nCols_eq hW hr
        rw [gather_range' r a n (by omega), List.getElem?_take]
        have b1 := lmIndex_block lo ⟨hm1, hm2⟩
        have b2 := lmIndex_block W.ellMin ⟨hm1, hm2⟩
        have hlo : lo ^ 2 ≤ ell ^ 2 := by nlinarith
        have hhi : (ell + 1) ^ 2 ≤ (hi + 1) ^ 2 := by nlinarith
        rw [if_pos (by omega), List.getElem?_drop]
        congr 1
        have : lmIndex ell m W.ellMin = lmIndex ell m lo + (lo ^ 2 - W.ellMin ^ 2) := by
          unfold lmIndex; ring
        omega
  · refine ⟨?_, ?_, ?_, ?_, h2, hn⟩
    · show (gather W.frame idx).length = (gather W.t idx).length
      rw [gather_length _ _ hidx, gather_length _ _ hidx1]
    · show ((gather W.data idx).map (gather · (List.range' a n))).length = (gather W.t idx).length
      rw [List.length_map, gather_length _ _ hidx, gather_length _ _ hidx2]
    · intro r hr
      have hr' : r ∈ (gather W.data idx).map (gather · (List.range' a n)) := hr
      obtain ⟨r0, hr0, rfl⟩ := List.mem_map.mp hr'
      have : r0 ∈ W.data := by
        unfold gather at hr0
        obtain ⟨i, _, hi⟩ := List.mem_filterMap.mp hr0
        exact List.mem_of_getElem? hi
      have := hW.cols _ this
      rw [gather_length]
      · show (List.range' a n).length = n
        simp
      · intro i hi; rw [List.mem_range'_1] at hi; omega
    · show 0 ≤ lo; omega

theorem ellRange_int (a b ell : Int) (h1 : a ≤ ell) (h2 : ell ≤ b) :
    ellRange a b (.int ell) = .ok (ell, ell,
      ⟨some (ell ^ 2 - a ^ 2), some (ell * (ell + 2) + 1 - a ^ 2), none⟩) :=
  if_neg (by omega)

theorem ellRange_slice (a b : Int) (l1 l2 : Option Int) (h1 : l1 ≠ some 0) (h2 : l2 ≠ some 0)
    (hle : a ≤ l1.getD a) (hge : l2.getD (b + 1) ≤ b + 1) :
    ellRange a b (.slice ⟨l1, l2, none⟩) = .ok (l1.getD a, l2.getD (b + 1) - 1,
      ⟨some ((l1.getD a) ^ 2 - a ^ 2),
       some ((l2.getD (b + 1) - 1) * ((l2.getD (b + 1) - 1) + 2) + 1 - a ^ 2), none⟩) := by
  have e0 : (!falsy none && (none : Option Int) != some 1) = false := rfl
  have e1 : (if falsy l1 = true then a else l1.getD 0) = l1.getD a := by
    cases l1 with
    | none => simp [falsy]
    | some v =>
      have : v ≠ 0 := fun e => h1 (by rw [e])
      simp [falsy, this]
  have e2 : (if falsy l2 = true then b else l2.getD 0 - 1) = l2.getD (b + 1) - 1 := by
    cases l2 with
    | none => simp [falsy]
    | some v =>
      have : v ≠ 0 := fun e => h2 (by rw [e])
      simp [falsy, this]
  have e3 : ¬ (falsy l1 && l2 == some 0) = true := by
    simp [h2]
  have : ellRange a b (.slice ⟨l1, l2, none⟩) =
      (if (falsy l1 && l2 == some 0) = true then .ok (0, -1, ⟨none, some 0, none⟩)
      else
        if (if falsy l1 = true then a else l1.getD 0) < a ∨
            (if falsy l2 = true then b else l2.getD 0 - 1) > b then .error .valueError
        else .ok ((if falsy l1 = true then a else l1.getD 0),
          (if falsy l2 = true then b else l2.getD 0 - 1),
          ⟨some ((if falsy l1 = true then a else l1.getD 0) ^ 2 - a ^ 2),
           some ((if falsy l2 = true then b else l2.getD 0 - 1) *
            ((if falsy l2 = true then b else l2.getD 0 - 1) + 2) + 1 - a ^ 2), none⟩)) := rfl
  rw [this, if_neg e3, e1, e2, if_neg (by omega)]

end Verif.Slicing
