import Verif.Model.Superrest
import Verif.Model.SuperrestLoop
import Verif.Spec.ComFrame

/-!
# Model of the passes of `com_transformation_to_map_to_superrest_frame` on data given as functions

`scri/asymptotic_bondi_data/map_to_superrest_frame.py`, lines 345-404.  The loop itself is `SuperrestLoop.run`.
-/

namespace Verif.ComFrame
open Verif.Spec.Sphere Verif.Spec.BondiFrame Verif.Spec.ComFrame Verif.AbdTransform

/-- `abd.transform(supertranslation=..., frame_rotation=..., boost_velocity=...)` (lines 383-387), for data given as functions and a velocity along the `z` axis (what the code computes in every direction: `BondiFrame.moved`).
Simplified: the rotation is 1 (line 381), and there is no error from the finite number of modes and times. -/
noncomputable def frameOf (T : Bms.BMS) (F : Fin 6 → Field) : Fin 6 → Field := moved (T.v 2) (fun θ φ => T.S.f fun i => nHat i θ φ) F

/-- `supertranslation[4:] *= 0` (line 380): the function with the modes up to `ell = 1` of `f`. -/
noncomputable def lowModes (f : (Fin 3 → ℝ) → ℝ) : (Fin 3 → ℝ) → ℝ :=
  let c := fun g : ℝ → ℝ → ℝ => (solid fun θ φ => ((f (fun i => nHat i θ φ) * g θ φ : ℝ) : ℂ)).re / (4 * Real.pi)
  fun r => c (fun _ _ => 1) + (3 * c (nHat 0) * r 0 + (3 * c (nHat 1) * r 1 + 3 * c (nHat 2) * r 2))

/-- Lines 380-381. -/
noncomputable def clean (T : Bms.BMS) : Bms.BMS := { T with q := 1, S := { T.S with f := lowModes T.S.f } }

/-- `G_prime` and `abd_prime.t` (lines 373 and 389). -/
structure Charge where
  G : Fin 3 → List ℝ
  t : List ℝ

/-- `abd.bondi_CoM_charge() / abd.bondi_four_momentum()[:, 0, None]` at the times `t`. -/
noncomputable def charge (F : Fin 6 → Field) (t : List ℝ) : Charge := { G := fun i => t.map fun u => place F u i, t := t }

/-- `G_prime` at the start of a pass (lines 371-373): computed from the data in the first pass, and kept from the pass before in the others. -/
noncomputable def current (t0 : List ℝ) (F : Fin 6 → Field) (itr : Nat) (g : Option Charge) : Py Charge :=
  if itr = 0 then .ok (charge F t0) else match g with
    | some g => .ok g
    | none => .error .unboundLocal

/-- The body of the loop (lines 371-391).  `t0` are the times of the data, `times` those of the transformed data, `mean` is `integrate(., t)[-1] / (t[-1] - t[0])`. -/
noncomputable def pass (ext : Bms.Ext) (times : Bms.BMS → List ℝ) (mean : List ℝ → List ℝ → ℝ) (t0 : List ℝ) (F : Fin 6 → Field) (itr : Nat) (s : Bms.BMS × Option Charge) :
    Py ((Bms.BMS × Option Charge) × SuperrestLoop.Err) := do
  let g ← current t0 F itr s.2
  let new ← Superrest.transformationFromCom g.G g.t
  let prod ← new.mul ext s.1
  let T ← prod.reorder ext Bms.normalOrder
  let T := clean T
  let t' := times T
  pure ((T, some (charge (frameOf T F) t')), .fin (mean (t'.map fun u => vabs (place (frameOf T F) u)) t'))

/-- `com_transformation_to_map_to_superrest_frame(abd, N_itr_max, rel_err_tol)`. -/
noncomputable def com (ext : Bms.Ext) (times : Bms.BMS → List ℝ) (mean : List ℝ → List ℝ → ℝ) (t0 : List ℝ) (F : Fin 6 → Field) (N : Int) (tol : ℝ) : Py (Bms.BMS × List SuperrestLoop.Err) := do
  let one ← Bms.bmsInit none none none
  SuperrestLoop.run (pass ext times mean t0 F) Prod.fst N (.fin tol) (one, none) one

end Verif.ComFrame
