/-!
# Specification of the XOR time-series encoding

Independent of the model: what the encoded and decoded arrays have to be, row by row and
word by word.
-/

namespace Verif.Spec.Xor

/-- All rows have `m` words. -/
def Rect (m : Nat) (u : List (List (BitVec 64))) : Prop := ∀ r ∈ u, r.length = m

/-- Word `j` of time step `i` (zero outside the array). -/
def word (u : List (List (BitVec 64))) (i j : Nat) : BitVec 64 := (u.getD i []).getD j 0

/-- XOR of word `j` over the time steps `0..i`. -/
def prefixXor (u : List (List (BitVec 64))) (j : Nat) : Nat → BitVec 64
  | 0 => word u 0 j
  | i + 1 => prefixXor u j i ^^^ word u (i + 1) j

end Verif.Spec.Xor
