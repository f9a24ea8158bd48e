import Mathlib.Order.Defs.LinearOrder

/-!
# Specification of the common time grid
-/

namespace Verif.Spec.Intersection
variable {α : Type} [LinearOrder α] [Add α] [Sub α]

/-- `d` is the spacing of the grid `ts` around the time `t`: the length of the interval
`(ts[j-1], ts[j]]` that contains `t` (the first interval includes its left end). -/
def LocalSpacing (ts : List α) (t d : α) : Prop :=
  ∃ (j : Nat) (x y : α), ts[j]? = some x ∧ ts[j + 1]? = some y ∧ d = y - x ∧
    (x < t ∨ (j = 0 ∧ x = t)) ∧ t ≤ y

/-- `t'` follows `t` by the finer of the two local spacings, but at least by `step`. -/
def Follows (t1 t2 : List α) (step t t' : α) : Prop :=
  ∃ d1 d2, LocalSpacing t1 t d1 ∧ LocalSpacing t2 t d2 ∧ t' = t + max (min d1 d2) step

/-- `out` is the admissible grid from `mint` up to but not including `maxt`: it starts at
`mint`, each entry follows the previous one, all entries are below `maxt`, and the entry that
would come next is not. -/
inductive Grid (t1 t2 : List α) (step maxt : α) : α → List α → Prop
  | stop (t : α) (h : maxt ≤ t) : Grid t1 t2 step maxt t []
  | next (t t' : α) (out : List α) (h : t < maxt) (hf : Follows t1 t2 step t t')
      (hr : Grid t1 t2 step maxt t' out) : Grid t1 t2 step maxt t (t :: out)

/-- `m` is the latest of `a`, `b` and the optional user limit. -/
def IsLatest (a b : α) (lim : Option α) (m : α) : Prop :=
  (m = a ∨ m = b ∨ lim = some m) ∧ a ≤ m ∧ b ≤ m ∧ ∀ x, lim = some x → x ≤ m

/-- `m` is the earliest of `a`, `b` and the optional user limit. -/
def IsEarliest (a b : α) (lim : Option α) (m : α) : Prop :=
  (m = a ∨ m = b ∨ lim = some m) ∧ m ≤ a ∧ m ≤ b ∧ ∀ x, lim = some x → m ≤ x

/-- `d` is the spacing between two neighbours of `ts`. -/
def IsSpacing (ts : List α) (d : α) : Prop :=
  ∃ (j : Nat) (x y : α), ts[j]? = some x ∧ ts[j + 1]? = some y ∧ d = y - x

end Verif.Spec.Intersection
