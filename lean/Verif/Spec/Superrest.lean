import Verif.Model.Superrest
import Verif.Spec.Bms
import Mathlib.Analysis.SpecialFunctions.Exp

/-!
# Specification for the superrest frame: modes, time series
-/

namespace Verif.Spec.Superrest

open Verif.Modes Verif.Superrest Verif.Spec.Bms

/-- The mode `(ell, m)` at time number `i` of a list of rows that start at `ell = ellMin`. -/
def mode (data : List (Row ℂ)) (ellMin : Int) (i : Nat) (ell m : Int) : ℂ :=
  match data[i]? with
  | some row => row (lmIndex ell m ellMin)
  | none => 0

/-- `(ell, m)` are the indices of a mode. -/
def IsMode (ell m : Int) : Prop := -ell ≤ m ∧ m ≤ ell

/-- The modes below the spin weight are 0, as `spherical_functions.Modes` takes care of. -/
def LowZero (s : Int) (data : List (Row ℂ)) : Prop := ∀ i ell m, IsMode ell m → ell < |s| → mode data 0 i ell m = 0

/-- The retarded time, in direction `r`, of the light that an event sends. -/
noncomputable def cut (X : Four) (r : Vec) : ℝ := X.1 - dot X.2 r

end Verif.Spec.Superrest
