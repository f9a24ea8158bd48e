import Verif.Model.Parity
import Mathlib.Algebra.Ring.Parity

/-!
# Specification of the parity operations on modes

For a spin-weighted function with modes `f(ell, m)`:
* reflection along x:  `(-1)^m conj f(ell, m)`
* reflection along y:  `conj f(ell, m)`
* reflection along z:  `(-1)^(ell+s) conj f(ell, -m)`
* inversion:           `(-1)^(ell+s+m) conj f(ell, -m)`
-/

namespace Verif.Spec.Parity
open Verif.Parity Verif.Modes ComplexConjugate

/-- `(-1)^n` -/
noncomputable def sgn (n : Int) : ℂ := open Classical in if Even n then 1 else -1

/-- The mode `(ell, m)` stored in a waveform. -/
def mode (W : Wave) (ell m : Int) : ℂ := W.row (lmIndex ell m W.ellMin)

/-- The reflected mode. -/
noncomputable def reflected (ax : Axis) (W : Wave) (ell m : Int) : ℂ :=
  match ax with
  | .x => sgn m * conj (mode W ell m)
  | .y => conj (mode W ell m)
  | .z => sgn (ell + W.spin) * conj (mode W ell (-m))
  | .all => sgn (ell + W.spin + m) * conj (mode W ell (-m))

/-- `(ell, m)` is one of the modes of `W`. -/
def HasMode (W : Wave) (ell m : Int) : Prop := W.ellMin ≤ ell ∧ ell ≤ W.ellMax ∧ |m| ≤ ell

/-- Two waveforms with the same modes, spin weight, data type and frame. -/
def Same (V W : Wave) : Prop :=
  V.known = W.known ∧ V.spin = W.spin ∧ V.ellMin = W.ellMin ∧ V.ellMax = W.ellMax ∧
    V.frame = W.frame ∧ ∀ ell m, HasMode W ell m → mode V ell m = mode W ell m

end Verif.Spec.Parity
