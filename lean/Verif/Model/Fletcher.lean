/-!
# Model of `scri/utilities.py` : `fletcher32`

The input, viewed as `uint16`, is a list of natural numbers below `2^16`.  Accumulators are
natural numbers, and every addition is followed by an explicit reduction `wrap`; the real
function is `wrap n = n mod 2^32` (unsigned 32-bit arithmetic, as the docstring says).  Under
numba the accumulators are promoted to 64 bits; since `Props/Fletcher.lean` proves that
`wrap` never changes anything, both readings give the same result.
-/

namespace Verif.Fletcher

/-- Loop body `c0 += data[j]; c1 += c0` (`scri/utilities.py` lines 262-263). -/
def inner (wrap : Nat → Nat) (c : Nat × Nat) (d : Nat) : Nat × Nat :=
  (wrap (c.1 + d), wrap (c.2 + wrap (c.1 + d)))

/-- The `while j < size` loop (`scri/utilities.py` lines 259-266).  `data` is the part of the
array from index `j` on, so `block_length = min(block_size, size - j)` is the length of
`data.take block`.  `fuel` bounds the number of iterations; `run` supplies enough. -/
def loop (wrap : Nat → Nat) (block : Nat) : Nat → List Nat → Nat × Nat → Nat × Nat
  | 0, _, c => c
  | fuel + 1, data, c =>
    if data.isEmpty then c
    else
      let c' := (data.take block).foldl (inner wrap) c
      loop wrap block fuel (data.drop block) (c'.1 % 65535, c'.2 % 65535)

/-- `fletcher32` with the accumulator width and block size as parameters
(`scri/utilities.py` lines 233-267).  The last line is `c1 << 16 | c0`. -/
def run (wrap : Nat → Nat) (block : Nat) (data : List Nat) : Nat :=
  let c := loop wrap block data.length data (0, 0)
  wrap (c.2 <<< 16) ||| c.1

/-- Unsigned 32-bit wrap-around. -/
def u32 (n : Nat) : Nat := n % 2 ^ 32

/-- `fletcher32` (`scri/utilities.py` lines 233-267): 32-bit accumulators, blocks of 360. -/
def fletcher32 (data : List Nat) : Nat := run u32 360 data

end Verif.Fletcher
