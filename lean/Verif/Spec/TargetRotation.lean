import Verif.Model.TargetRotation
import Verif.Spec.AngMom
import Verif.Spec.Rotation
import Verif.Model.AbdTransform
import Mathlib.Analysis.Calculus.ContDiff.Defs

/-!
# What the rotation to a target is (C101)
-/

namespace Verif.Spec.TargetRotation
open Verif Verif.Modes Verif.ModeCalc Verif.TargetRotation Verif.Spec.AngMom
open Verif.AbdTransform (rotateVec)
open Verif.Spec.Rotation (UnitRotor rot)

/-- The modes of the field at the time `s`, and of its rate of change. -/
def modes (f : ℝ → Row ℂ) (s : ℝ) : Fn := fun ell m => f s (lmIndex ell m 2)
noncomputable def rate (f : ℝ → Row ℂ) (s : ℝ) : Fn := fun ell m => deriv (fun u => f u (lmIndex ell m 2)) s

/-- `w` is the angular velocity of the field: the modes change least in the frame that turns with it. -/
def Velocity (L : Int) (f : ℝ → Row ℂ) (s : ℝ) (w : Vec) : Prop := ∀ w', change 2 L (modes f s) (rate f s) w ≤ change 2 L (modes f s) (rate f s) w'

/-- No rotation leaves the field as it is. -/
def Regular (L : Int) (f : ℝ → Row ℂ) (s : ℝ) : Prop := ∀ v : Vec, v ≠ 0 → (inner 2 L (vL v (modes f s)) (vL v (modes f s))).re ≠ 0

/-- The two vectors have the same direction. -/
def Parallel (v w : Vec) : Prop := ∃ c : ℝ, 0 < c ∧ ∀ i, w i = c * v i

/-- `f'` is the field `f` with respect to the axes turned by `Q`. -/
def Turned (L : Int) (Q : Quaternion ℝ) (f f' : ℝ → Row ℂ) : Prop := ∀ s ell m, 2 ≤ ell → ell ≤ L → -ell ≤ m → m ≤ ell → modes f' s ell m = rot ell Q (modes f s ell) m

/-- What is assumed of the functions that are called: `solve` solves every regular system; if some rotation takes all vectors of one list to those of the other, the optimal alignment is one; the modes turn with the axes; the
integral of 0 is 0. -/
structure Good (ext : Ext) : Prop where
  solves : ∀ A l x, ext.solve A l = .ok x → ∀ i, ∑ j, A i j * x j = l i
  solvable : ∀ A l, (∀ v : Vec, (∀ i, ∑ j, A i j * v j = 0) → v = 0) → ∃ x, ext.solve A l = .ok x
  align : ∀ v u ts R0, UnitRotor R0 → u = v.map (rotateVec R0) → UnitRotor (ext.align v u ts) ∧ u = v.map (rotateVec (ext.align v u ts))
  turn : ∀ L Q f, UnitRotor Q → Turned L Q f fun s => ext.turn L Q (f s)
  zero : ∀ ys ts, (∀ y ∈ ys, y = 0) → ext.integrate ys ts = 0

/-- The third derivatives exist and are continuous. -/
def Smooth (w : Wave) : Prop := ∀ i, ContDiff ℝ 3 fun s => w.strain s i

end Verif.Spec.TargetRotation
