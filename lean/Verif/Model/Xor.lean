import Verif.Py.Basic

/-!
# Model of `scri/utilities.py` : `xor_timeseries`, `xor_timeseries_reverse`

The array `u = c.view(np.uint64)` is a list of time steps, each of which is a list of
64-bit words (all trailing dimensions flattened; NumPy's `bitwise_xor` on two rows of the
same shape is elementwise).  The code mutates the array in place; the model threads the
array through the loop.
-/

namespace Verif.Xor

/-- One time step: the 64-bit words of all trailing dimensions. -/
abbrev Row := List (BitVec 64)

/-- `np.bitwise_xor(u[i - 1], u[i])` for two rows of equal shape
(`scri/utilities.py` lines 214 and 229). -/
def rowXor (x y : Row) : Row := List.zipWith (· ^^^ ·) x y

/-- The loop body `u[i] = np.bitwise_xor(u[i - 1], u[i])`
(`scri/utilities.py` lines 214 and 229).  For `1 ≤ i < len(u)`, the only indices the loops
use, both reads are inside the array. -/
def xorAt (u : List Row) (i : Nat) : List Row :=
  u.set i (rowXor (u.getD (i - 1) []) (u.getD i []))

/-- `xor_timeseries` (`scri/utilities.py` lines 194-215):
`for i in range(u.shape[0] - 1, 0, -1)`.  `range(n - 1, 0, -1)` is `[n-1, ..., 1]`, which is
`(range' 1 (n-1))` reversed (empty for `n ≤ 1`). -/
def xorTimeseries (u : List Row) : List Row :=
  (List.range' 1 (u.length - 1)).reverse.foldl xorAt u

/-- `xor_timeseries_reverse` (`scri/utilities.py` lines 218-230):
`for i in range(1, u.shape[0])`. -/
def xorTimeseriesReverse (u : List Row) : List Row :=
  (List.range' 1 (u.length - 1)).foldl xorAt u

end Verif.Xor
