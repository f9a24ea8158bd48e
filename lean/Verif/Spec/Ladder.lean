import Mathlib.Analysis.Real.Sqrt

/-!
# Specification of eth and ethbar on spin-weighted spherical harmonics

`eth  sYlm =  sqrt((l-s)(l+s+1)) (s+1)Ylm`, `ethbar sYlm = -sqrt((l+s)(l-s+1)) (s-1)Ylm`
(Newman-Penrose); modes with `l < |s|` do not exist, so they are sent to zero.
-/

namespace Verif.Spec.Ladder

inductive Op where
  | eth | ethbar
  deriving DecidableEq

/-- Change of spin weight. -/
def Op.shift : Op → Int
  | .eth => 1
  | .ethbar => -1

/-- Factor of a single operation on spin weight `s`, degree `l`. -/
noncomputable def single (s l : Int) : Op → ℝ
  | .eth => if |s| ≤ l then Real.sqrt (((l : ℝ) - s) * (l + s + 1)) else 0
  | .ethbar => if |s| ≤ l then -Real.sqrt (((l : ℝ) + s) * (l - s + 1)) else 0

/-- Spin weight after a sequence of operations (the last one in the list acts first). -/
def spinAfter (s : Int) : List Op → Int
  | [] => s
  | o :: ops => spinAfter s ops + o.shift

/-- Factor of a sequence (the last one in the list acts first). -/
noncomputable def factor (s l : Int) : List Op → ℝ
  | [] => 1
  | o :: ops => single (spinAfter s ops) l o * factor s l ops

end Verif.Spec.Ladder

namespace Verif.Spec.Ladder

/-- The ways of writing an operation inside a string: eth is "ð" or "+", ethbar is "ð" followed by
the combining overline, or "-". -/
def Op.spellings : Op → List (List Char)
  | .eth => [['ð'], ['+']]
  | .ethbar => [['ð', Char.ofNat 0x305], ['-']]

/-- The string `s` spells the operations `ops`. -/
inductive Spells : List Char → List Op → Prop
  | nil : Spells [] []
  | cons (p s : List Char) (o : Op) (ops : List Op) (hp : p ∈ o.spellings) (h : Spells s ops) :
      Spells (p ++ s) (o :: ops)

end Verif.Spec.Ladder
