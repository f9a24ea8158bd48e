import Verif.Model.AbdModes
import Verif.Spec.GridModes
import Verif.Spec.AbdTransform

/-!
# Transformations of asymptotic Bondi data: what is meant
-/

namespace Verif.AbdModes.Spec

open Verif Verif.Modes Verif.TransformKwargs Verif.AbdModes
open Verif.GridModes.Spec (ethTime)
open Verif.GridMultiply.Spec (expansion)

/-- A spline passes through its points. -/
def Interpolates (spline : List (ℝ × ℂ) → ℝ → ℂ) : Prop :=
  ∀ nodes : List (ℝ × ℂ), (nodes.map Prod.fst).Pairwise (· < ·) → ∀ p ∈ nodes, spline nodes p.1 = p.2

/-- The spin weights of `psi0`, …, `psi4` and `sigma`. -/
def spinOf : Fin 6 → Int := ![2, 1, 0, -1, -2, 2]

/-- The mode `(ell, m)` of the field `c` at the time with number `i`. -/
def mode (a : Abd) (c : Fin 6) (i : Nat) (ell m : Int) : ℂ := ((a.data c).getD i fun _ => 0) (lmIndex ell m 0)

/-- The data that can be transformed: two or more times, which increase, and a row of modes for each. -/
structure Good (a : Abd) : Prop where
  times : 2 ≤ a.t.length
  increasing : a.t.Pairwise (· < ·)
  rows : ∀ c, (a.data c).length = a.t.length
  ellMax : 0 ≤ a.ellMax

/-- `b` has the times `t - tau`, and for all six fields the modes of `a` with respect to the rotated basis, zero beyond those of `a`. -/
def Transformed (b a : Abd) (tau : ℝ) (R : Quaternion ℝ) : Prop :=
  b.t = a.t.map (· - tau) ∧ ∀ c, (b.data c).length = a.t.length ∧ ∀ i, i < a.t.length → ∀ ell m, |spinOf c| ≤ ell → ell ≤ b.ellMax → -ell ≤ m → m ≤ ell →
    mode b c i ell m = if ell ≤ a.ellMax then Verif.Spec.Rotation.rot ell R (mode a c i ell) m else 0

/-- The value of the field `c` in the direction of `R` at the time with number `i`. -/
noncomputable def value (a : Abd) (i : Nat) (R : Quaternion ℝ) (c : Fin 6) : ℂ := expansion (spinOf c) a.ellMax (mode a c i) R

/-- The Doppler factor `k = 1 / (γ (1 - v · r))` in the direction of `R`. -/
noncomputable def doppler (g : ℝ) (v : Fin 3 → ℝ) (R : Quaternion ℝ) : ℝ := 1 / (g * (1 - ∑ i, v i * Verif.GridModes.Spec.dir R i))

/-- The supertranslation in the direction of `R`. -/
noncomputable def alphaAt (L : Int) (A : Int → Int → ℂ) (R : Quaternion ℝ) : ℝ := (expansion 0 L A R).re

/-- The transformation law of the six fields in the direction of `R`, at the time `u` with number `i`: `A` are the modes of the supertranslation `α`, up to `L`, `V` those of `v · r`. -/
noncomputable def newValue (a : Abd) (g k alpha : ℝ) (V A : Int → Int → ℂ) (L : Int) (R : Quaternion ℝ) (c : Fin 6) (i : Nat) (u : ℝ) : ℂ :=
  if c = 5 then Verif.Spec.AbdTransform.shear ((1 / k : ℝ) : ℂ) (expansion 2 L (Charges.ethGHP 1 (Charges.ethGHP 0 A)) R) (value a i R 5)
  else Verif.Spec.AbdTransform.mix ((1 / k : ℝ) : ℂ) (ethTime g k u alpha V L A R) (fun n => value a i R (Fin.ofNat 6 n)) c

end Verif.AbdModes.Spec
