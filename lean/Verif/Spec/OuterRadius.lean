import Mathlib.Data.Real.Basic
import Mathlib.Data.List.Basic

/-!
# Specification of the selection of radii, of the common times, and of the mass
-/

namespace Verif.Spec.OuterRadius

/-- The radii `rs` belong in order to those of the names that some pattern of `R` finds, and each name is found by at most one pattern. -/
inductive Aligned {α : Type} (search : α → α → Bool) (R : List α) : List α → List α → Prop
  | nil : Aligned search R [] []
  | skip (name : α) (names rs : List α) : R.filter (fun p => search p name) = [] → Aligned search R names rs → Aligned search R (name :: names) rs
  | take (name r : α) (names rs : List α) : R.filter (fun p => search p name) = [r] → Aligned search R names rs → Aligned search R (name :: names) (r :: rs)

/-- `x` is in the bin `k` of `n` bins of the width `w` that begin at `lo`; the last bin has its right end. -/
def InBin (lo w : ℝ) (n k : Nat) (x : ℝ) : Prop := lo + k * w ≤ x ∧ (x < lo + (k + 1) * w ∨ (k + 1 = n ∧ x = lo + n * w))

end Verif.Spec.OuterRadius
