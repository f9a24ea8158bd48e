import Verif.Py.Basic

/-!
# Model of `scri/utilities.py` : `multishuffle`

Arrays of unsigned integers of `bw` bits are lists of natural numbers below `2^bw`.  Numba
compiles the loops without bounds checks, so an out-of-range index would corrupt memory; the
model makes every array access explicit and reports `outOfBounds` instead.  A store into an
array element truncates to `bw` bits (`% 2 ^ bw`).  Intermediate values are 64-bit in numba
(integer promotion); the only operation in which that could lose bits is a left shift, whose
result is then truncated to `bw ≤ 64` bits or masked with at most 64 bits, so natural numbers
give the same stored values.  The running bit position is a `uint64`; arrays of `2^58` or
more elements, for which it would wrap, are outside the model's scope.  Width 0, for which
`bit_width // shuffle_width` divides by zero, is reported as `zeroDivision`.
-/

namespace Verif.Multishuffle

/-- Read of an array element, checked. -/
def readAt (b : List Nat) (i : Nat) : Py Nat :=
  if i < b.length then .ok (b.getD i 0) else .error .outOfBounds

/-- `b[i] += v` on an array of `bw`-bit unsigned integers, checked. -/
def addAt (bw : Nat) (b : List Nat) (i v : Nat) : Py (List Nat) :=
  if i < b.length then .ok (b.set i ((b.getD i 0 + v) % 2 ^ bw)) else .error .outOfBounds

/-- Inner loop body of `shuffle` (`scri/utilities.py` lines 365-371).  `w` is
`shuffle_width`, `s` is `mask_shift`, `x` is `a[a_array_index]`, and the state is the output
array with `b_array_bit`. -/
def shuffleStep (bw w s : Nat) (st : List Nat × Nat) (x : Nat) : Py (List Nat × Nat) := do
  let idx := st.2 / bw
  let el := st.2 % bw
  let masked := (x >>> s) &&& (2 ^ w - 1)
  let b ← addAt bw st.1 idx (masked <<< el)
  let b ← if el + w > bw then addAt bw b (idx + 1) (masked >>> (bw - el)) else pure b
  pure (b, st.2 + w)

/-- Outer loop body of `shuffle` (`scri/utilities.py` lines 360-371) for the width `w`
with index `i` in `reversed_shuffle_widths`. -/
def shuffleGroup (bw : Nat) (rev a : List Nat) (st : List Nat × Nat) (wi : Nat × Nat) :
    Py (List Nat × Nat) :=
  if wi.1 = 0 then .error .zeroDivision
  else a.foldlM (shuffleStep bw wi.1 (rev.take wi.2).sum) st

/-- `shuffle` (`scri/utilities.py` lines 349-372). -/
def shuffle (bw : Nat) (widths a : List Nat) : Py (List Nat) := do
  let st ← widths.reverse.zipIdx.foldlM (shuffleGroup bw widths.reverse a)
    (List.replicate a.length 0, 0)
  pure st.1

/-- Inner loop body of `unshuffle` (`scri/utilities.py` lines 395-404).  The state is the
output array with `b_array_bit`, `k` is `a_array_index`. -/
def unshuffleStep (bw w s : Nat) (b : List Nat) (st : List Nat × Nat) (k : Nat) :
    Py (List Nat × Nat) := do
  let idx := st.2 / bw
  let el := st.2 % bw
  let x ← readAt b idx
  let masked := (x >>> el) &&& (2 ^ w - 1)
  let a ← addAt bw st.1 k (masked <<< s)
  let a ← if el + w > bw then do
      let y ← readAt b (idx + 1)
      addAt bw a k (((y <<< (bw - el)) &&& (2 ^ w - 1)) <<< s)
    else pure a
  pure (a, st.2 + w)

/-- Outer loop body of `unshuffle` (`scri/utilities.py` lines 390-404). -/
def unshuffleGroup (bw : Nat) (rev b : List Nat) (st : List Nat × Nat) (wi : Nat × Nat) :
    Py (List Nat × Nat) :=
  if wi.1 = 0 then .error .zeroDivision
  else (List.range b.length).foldlM (unshuffleStep bw wi.1 (rev.take wi.2).sum b) st

/-- `unshuffle` (`scri/utilities.py` lines 380-405). -/
def unshuffle (bw : Nat) (widths b : List Nat) : Py (List Nat) := do
  let st ← widths.reverse.zipIdx.foldlM (unshuffleGroup bw widths.reverse b)
    (List.replicate b.length 0, 0)
  pure st.1

/-- `multishuffle` (`scri/utilities.py` lines 270-407): checks the widths and returns the
function that shuffles (`forward = true`) or unshuffles flat arrays.  The `ndim` check is not
modelled: lists are flat. -/
def multishuffle (widths : List Nat) (forward : Bool) : Py (List Nat → Py (List Nat)) :=
  if widths.sum ∈ [8, 16, 32, 64] then
    .ok (if forward then shuffle widths.sum widths else unshuffle widths.sum widths)
  else .error .valueError

end Verif.Multishuffle
