import Verif.Model.FrameErrors
import Verif.Model.TargetRotation

/-!
# Model of `rel_err_for_abd_in_superrest` (`scri/asymptotic_bondi_data/map_to_superrest_frame.py` lines 621-667), with a target strain

The first and the third error are those of `Verif.Model.FrameErrors`.
-/

namespace Verif.TargetError
open Verif Verif.SuperrestLoop

/-- `rel_err_rotation` with a target strain `g` (lines 625-651); `w` is the strain of the data.  With no times `news.t[0]` is an `IndexError`. -/
noncomputable def rotationError (ext : TargetRotation.Ext) (g w : TargetRotation.Wave) : Py Err := do
  let u ← TargetRotation.directions ext g.ellMax (TargetRotation.targetNews g) w.t
  let v ← TargetRotation.directions ext w.ellMax (TargetRotation.news w) w.t
  if w.t = [] then .error .indexError else pure (TargetRotation.error ext u w v)

/-- `rel_err_for_abd_in_superrest(abd, target_PsiM, target_strain)` (lines 621-667); `w` is the strain of the data `a`. -/
noncomputable def errors (ext : FrameErrors.Ext) (ext' : TargetRotation.Ext) (target : Option FrameErrors.Target) (g w : TargetRotation.Wave) (a : FrameErrors.Data) : Py (Err × Err × Err) := do
  let G ← a.at'.mapM (FrameErrors.place ext)
  let e1 ← FrameErrors.average ext G (a.at'.map (·.t))
  let e2 ← rotationError ext' g w
  let e3 ← FrameErrors.superError ext a target
  pure (e1, e2, e3)

end Verif.TargetError
