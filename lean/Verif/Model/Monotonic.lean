import Verif.Py.Basic
import Mathlib.Order.Defs.LinearOrder

/-!
# Model of the monotonicity filters

* `scri/SpEC/file_io/__init__.py` lines 50-78: `index_is_monotonic`, `monotonic_indices`,
  `monotonize`;
* `scri/extrapolation.py` lines 26-43: `monotonic_indices`.

Times are elements of a linear order (floating-point NaN is not modelled).
-/

namespace Verif.Monotonic

section SpEC
variable {α : Type} [LinearOrder α]

/-- The loop of the increasing branch (`scri/SpEC/file_io/__init__.py` lines 55-60):
`m` is `max_value`; the list holds `y[i], y[i+1], ...`. -/
def upMask (m : α) : List α → List Bool
  | [] => []
  | x :: l => if x ≤ m then false :: upMask m l else true :: upMask x l

/-- The loop of the other branch (`scri/SpEC/file_io/__init__.py` lines 62-67). -/
def downMask (m : α) : List α → List Bool
  | [] => []
  | x :: l => if x ≥ m then false :: downMask m l else true :: downMask x l

/-- `index_is_monotonic` (`scri/SpEC/file_io/__init__.py` lines 50-69).
`direction = y[-1] - y[0]; if direction > 0.0` is written `y[0] < y[-1]`.  The empty array, on
which `y[-1]` is an invalid access, is reported as an error. -/
def indexIsMonotonic : List α → Py (List Bool)
  | [] => .error .indexError
  | y0 :: l =>
    .ok (true :: (if y0 < (y0 :: l).getLast (by simp) then upMask y0 l else downMask y0 l))

/-- `monotonic_indices` (`scri/SpEC/file_io/__init__.py` lines 72-74):
`np.arange(y.size)[mask]`. -/
def monotonicIndices (y : List α) : Py (List Nat) := do
  let mask ← indexIsMonotonic y
  pure ((List.range y.length).filter fun i => mask.getD i false)

/-- `monotonize` (`scri/SpEC/file_io/__init__.py` lines 77-78): fancy indexing
`y[indices]`. -/
def monotonize (y : List α) : Py (List α) := do
  let idx ← monotonicIndices y
  pure (idx.filterMap fun i => y[i]?)

end SpEC

section Extrapolation
variable {α : Type} [LinearOrder α] [Add α]

/-- The inner `while T[Ind[j]] + MinTimeStep < T[Ind[i]]: j += 1`
(`scri/extrapolation.py` lines 35-37), started at `j = 0`: the first index that fails the
condition.  For `MinTimeStep ≥ 0` the loop stops at `j = i` at the latest. -/
def innerJ (T : Nat → α) (m : α) (Ind : List Nat) (i : Nat) : Nat :=
  Ind.findIdx fun x => ! decide (T x + m < T (Ind.getD i 0))

/-- One pass through the body of `while i < Size` (`scri/extrapolation.py` lines 33-42).
`Ind[i - 1]` for `i = 0` is Python's `Ind[-1]`, the last entry.  `numpy.delete(Ind,
range(j, i))` keeps the entries before `j` and from `i` on, and the two statements
`i = j - 1; i += 1` give `i = j`. -/
def passBody (T : Nat → α) (m : α) (Ind : List Nat) (i : Nat) : List Nat × Nat :=
  let prev := if i = 0 then Ind.getD (Ind.length - 1) 0 else Ind.getD (i - 1) 0
  if T (Ind.getD i 0) ≤ T prev + m then
    let j := innerJ T m Ind i
    (Ind.take j ++ Ind.drop (max i j), j)
  else (Ind, i + 1)

/-- The `while i < Size` loop (`scri/extrapolation.py` lines 33-42) with at most `fuel`
passes; `none` means that it is still running after that many passes. -/
def loop (T : Nat → α) (m : α) : Nat → List Nat → Nat → Option (List Nat)
  | fuel, Ind, i =>
    if i < Ind.length then
      match fuel with
      | 0 => none
      | fuel + 1 => loop T m fuel (passBody T m Ind i).1 (passBody T m Ind i).2
    else some Ind

/-- `monotonic_indices(T, MinTimeStep)` (`scri/extrapolation.py` lines 26-43) for an array of
length `n`, run for at most `fuel` passes of its main loop. -/
def exMonotonicIndices (fuel n : Nat) (T : Nat → α) (m : α) : Option (List Nat) :=
  loop T m fuel (List.range n) 1

end Extrapolation

end Verif.Monotonic
