import Verif.Model.SuperrestMap
import Verif.Spec.FrameErrors
import Verif.Spec.Moreschi

/-!
# Specification: data in the superrest frame (C104)
-/

namespace Verif.Spec.SuperrestMap
open Verif Verif.Charges Verif.SuperrestLoop Verif.FrameErrors Verif.SuperrestMap Verif.Spec.FrameErrors Verif.Spec.AbdFrame Verif.Spec.Moreschi

/-- Data in the superrest frame: the center of mass is at the origin, the spin points along `z`, and the supermomentum has no modes with `ell >= 2`. -/
structure InSuperrest (ext : Ext) (a : Data) : Prop where
  centered : Centered ext a
  upright : Upright ext a
  nice : Nice ext none a

/-- The supermomentum does not change with time, is a real function, and has no momentum: its modes up to those of the data are `f`. -/
structure Stationary (ext : Ext) (a : Data) (f : Modes) : Prop where
  same : ∀ d ∈ a.at', ∃ g, supermomentum (ext.prod d) d "moreschi" false = .ok g ∧ ∀ ell m, 0 ≤ ell → ell ≤ a.ellMax → |m| ≤ ell → g ell m = f ell m
  real : RealFunction a.ellMax f
  energy : (f 0 0).re < 0
  momentum : ∀ m, |m| ≤ 1 → f 1 m = 0

/-- The identity transformation does nothing, and the time translation by `-t0` undoes that by `t0`. -/
structure Group (c : Calls) (t0 : ℝ) : Prop where
  one : c.compose Tr.one Tr.one = .ok Tr.one
  left : c.compose Tr.one (timeTranslation t0) = .ok (timeTranslation t0)
  right : c.compose (timeTranslation t0) Tr.one = .ok (timeTranslation t0)
  back : c.compose (timeTranslation (-t0)) (timeTranslation t0) = .ok Tr.one
  same : ∀ a, c.transform a Tr.one = .ok a

/-- The data at the times from `i` to `j`, where `i` is the one nearest to `t0 - width` and `j` the one nearest to `t0 + width`. -/
def Window (a : Data) (t0 width : ℝ) (w : Data) : Prop :=
  w.ellMax = a.ellMax ∧ ∃ i j, Nearest (times a) (t0 - width) i ∧ Nearest (times a) (t0 + width) j ∧ ∀ n, w.at'[n]? = if i + n ≤ j then a.at'[i + n]? else none

/-- Options with which the loops run. -/
structure Sensible (o : Opts) : Prop where
  passes : 0 < o.passes
  com : 0 < o.com
  rotation : 0 < o.rotation
  supertranslation : 0 < o.supertranslation
  comTol : ∃ x : ℝ, o.comTol = .fin x ∧ 0 < x
  rotationTol : ∃ x : ℝ, o.rotationTol = .fin x ∧ 0 < x
  supertranslationTol : ∃ x : ℝ, o.supertranslationTol = .fin x ∧ 0 < x

end Verif.Spec.SuperrestMap
