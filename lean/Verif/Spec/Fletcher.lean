/-!
# Specification of the Fletcher-32 checksum: exact sums, no accumulators
-/

namespace Verif.Spec.Fletcher

/-- Every entry is a 16-bit word. -/
def Words (data : List Nat) : Prop := ∀ d ∈ data, d < 2 ^ 16

/-- The simple sum of the words. -/
def simpleSum : List Nat → Nat
  | [] => 0
  | d :: l => d + simpleSum l

/-- The sum of the words weighted by their distance from the end
(last word has weight one), which is the sum of all prefix sums. -/
def weightedSum : List Nat → Nat
  | [] => 0
  | d :: l => (l.length + 1) * d + weightedSum l

/-- Fletcher-32: the weighted sum in the upper, the simple sum in the lower 16 bits, both
modulo 65535. -/
def checksum (data : List Nat) : Nat :=
  (weightedSum data % 65535) * 65536 + simpleSum data % 65535

end Verif.Spec.Fletcher
