import Verif.Model.Slicing

/-!
# Specification of slicing
-/

namespace Verif.Spec.Slicing
open Verif.Slicing Verif.Modes
variable {τ Q K : Type}

/-- A consistent `WaveformModes` with one frame rotor per time. -/
structure Valid (W : WM τ Q K) : Prop where
  frame : W.frame.length = W.t.length
  rows : W.data.length = W.t.length
  cols : ∀ r ∈ W.data, r.length = W.nCols
  min : 0 ≤ W.ellMin
  max : W.ellMin - 1 ≤ W.ellMax
  modes : (W.nCols : Int) = (W.ellMax + 1) ^ 2 - W.ellMin ^ 2

/-- The value of mode `(ell, m)` at the `k`-th time, if there is one. -/
def modeAt (W : WM τ Q K) (k : Nat) (ell m : Int) : Option K :=
  (W.data[k]?).bind fun r => r[(lmIndex ell m W.ellMin).toNat]?

/-- `V` has the times number `idx` of `W`, with their frame and the modes `lo ≤ ell ≤ hi`. -/
structure Restricts (W V : WM τ Q K) (idx : List Nat) (lo hi : Int) : Prop where
  inside : ∀ i ∈ idx, i < W.t.length
  times : ∀ k : Nat, V.t[k]? = idx[k]?.bind fun i => W.t[i]?
  frames : ∀ k : Nat, V.frame[k]? = idx[k]?.bind fun i => W.frame[i]?
  ellMin : V.ellMin = lo
  ellMax : V.ellMax = hi
  modes : ∀ (k : Nat) (ell m : Int), lo ≤ ell → ell ≤ hi → -ell ≤ m → m ≤ ell →
    modeAt V k ell m = idx[k]?.bind fun i => modeAt W i ell m

end Verif.Spec.Slicing
