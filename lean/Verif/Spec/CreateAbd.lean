import Verif.Model.CreateAbd
import Verif.Spec.AbdModes
import Verif.Spec.GridModes

/-!
# From waveforms to asymptotic Bondi data: what is meant
-/

namespace Verif.CreateAbd.Spec

open Verif Verif.Modes Verif.AbdModes Verif.AbdModes.Spec Verif.GridModes
open Verif.GridModes.Spec (rowModes)

/-- The names of the Weyl components. -/
def label : Nat → String
  | 0 => "Psi0"
  | 1 => "Psi1"
  | 2 => "Psi2"
  | 3 => "Psi3"
  | _ => "Psi4"

/-- `ψ_n` of Moreschi and Boyle is that of SpEC multiplied by `2 (-1/√2)^n`. -/
noncomputable def specFactor (n : Nat) : ℂ := 2 * (-1 / (√2 : ℝ)) ^ n

/-- The mode at the time with number `i`, zero if there is none. -/
def wmode (w : WModes) (i : Nat) : Int → Int → ℂ := rowModes w (w.data.getD i fun _ => 0)

/-- The waveforms fit together: the same times and the same `ell_max`, one row for each time. -/
structure Fit (wms : List (String × WModes)) (t : List ℝ) (L : Int) : Prop where
  times : ∀ p ∈ wms, p.2.t = t
  ellMax : ∀ p ∈ wms, p.2.ellMax = L
  ellMin : ∀ p ∈ wms, 0 ≤ p.2.ellMin ∧ p.2.ellMin ≤ L
  rows : ∀ p ∈ wms, p.2.data.length = t.length
  some_times : t ≠ []
  some_waveforms : wms ≠ []

/-- `b` has the fields of the waveforms `W 0`, …, `W 4` (the Weyl components) and `H` (the strain), which are in the convention of SpEC. -/
structure Converted (b : Abd) (W : Nat → WModes) (H : WModes) : Prop where
  weyl : ∀ n : Fin 5, ∀ i, i < b.t.length → ∀ ell m : Int, 0 ≤ ell → ell ≤ b.ellMax → |m| ≤ ell → mode b n.castSucc i ell m = specFactor n * wmode (W n) i ell m
  shear : ∀ i, i < b.t.length → ∀ ell m : Int, 0 ≤ ell → ell ≤ b.ellMax → |m| ≤ ell → mode b 5 i ell m = Charges.bar (-2) (wmode H i) ell m / 2
  ellMax : (∀ n, n ≤ 4 → (W n).ellMax = b.ellMax) ∧ H.ellMax = b.ellMax

end Verif.CreateAbd.Spec
