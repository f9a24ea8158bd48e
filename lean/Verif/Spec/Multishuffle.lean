/-!
# Specification of the multi-shuffle layout

Everything is said in terms of bit streams, least-significant bit first.
-/

namespace Verif.Spec.Multishuffle

/-- The `w` bits of `x` that start at bit `s`. -/
def bitsOf (s w x : Nat) : List Bool := (List.range w).map fun t => x.testBit (s + t)

/-- An array of `bw`-bit words as one bit stream. -/
def stream (bw : Nat) (a : List Nat) : List Bool := a.flatMap (bitsOf 0 bw)

/-- The shuffled bit stream: for each group of bit width `w` (least-significant group first),
the bits of that group of all elements in order. -/
def layout (s : Nat) : List Nat → List Nat → List Bool
  | [], _ => []
  | w :: ws, a => a.flatMap (bitsOf s w) ++ layout (s + w) ws a

/-- Every element fits in `bw` bits. -/
def Fits (bw : Nat) (a : List Nat) : Prop := ∀ x ∈ a, x < 2 ^ bw

end Verif.Spec.Multishuffle
