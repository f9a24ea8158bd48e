import Verif.Model.Slicing
import Mathlib.Analysis.SpecialFunctions.Complex.Arg

/-!
# Model of the amplitudes and phases of waveforms (`scri/waveform_base.py` lines 523-533: `abs`, `arg`, `arg_unwrapped`)

Exact real numbers: there are no signed zeros, so that the phase of a negative number is `π`, never `-π`.
-/

namespace Verif.Phase
open Verif.Slicing

/-- `np.mod(x, p)`, for positive `p` -/
noncomputable def pmod (x p : ℝ) : ℝ := x - p * ⌊x / p⌋

/-- `ddmod` of `np.unwrap`: the step moved to the interval from `-π` to `π`; an upward step of exactly half a turn stays upward. -/
noncomputable def wrap (dd : ℝ) : ℝ :=
  let ddmod := pmod (dd + Real.pi) (2 * Real.pi) - Real.pi
  if ddmod = -Real.pi ∧ 0 < dd then Real.pi else ddmod

/-- `ph_correct` of `np.unwrap`: small steps are not corrected. -/
noncomputable def correction (dd : ℝ) : ℝ := if |dd| < Real.pi then 0 else wrap dd - dd

/-- `p[1:] + ph_correct.cumsum()`, where `prev` is the phase before and `acc` the sum up to it. -/
noncomputable def unwrapFrom (acc prev : ℝ) : List ℝ → List ℝ
  | [] => []
  | x :: xs => (x + (acc + correction (x - prev))) :: unwrapFrom (acc + correction (x - prev)) x xs

/-- `np.unwrap(p)` -/
noncomputable def unwrap : List ℝ → List ℝ
  | [] => []
  | x :: xs => x :: unwrapFrom 0 x xs

/-- `abs` (line 525) -/
noncomputable def abs {Q : Type} (w : WM ℝ Q ℂ) : List (List ℝ) := w.data.map (·.map (‖·‖))

/-- `arg` (line 529) -/
noncomputable def arg {Q : Type} (w : WM ℝ Q ℂ) : List (List ℝ) := w.data.map (·.map Complex.arg)

/-- `arg_unwrapped` (line 533): each column of `arg` is unwrapped on its own. -/
noncomputable def argUnwrapped {Q : Type} (w : WM ℝ Q ℂ) : List (List ℝ) :=
  (List.range w.data.length).map fun k => (List.range w.nCols).map fun j => (unwrap ((arg w).map (·.getD j 0))).getD k 0

end Verif.Phase
