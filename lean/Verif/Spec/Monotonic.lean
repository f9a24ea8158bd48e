import Mathlib.Order.Defs.LinearOrder

/-!
# Specification of the monotonicity filters
-/

namespace Verif.Spec.Monotonic
variable {α : Type} [LinearOrder α]

/-- Sample `i` is strictly greater than every earlier sample. -/
def RecordHigh (y : List α) (i : Nat) : Prop :=
  ∃ x, y[i]? = some x ∧ ∀ j, j < i → ∀ z, y[j]? = some z → z < x

/-- Sample `i` is strictly smaller than every earlier sample. -/
def RecordLow (y : List α) (i : Nat) : Prop :=
  ∃ x, y[i]? = some x ∧ ∀ j, j < i → ∀ z, y[j]? = some z → x < z

end Verif.Spec.Monotonic
