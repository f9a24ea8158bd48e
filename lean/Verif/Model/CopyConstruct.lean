import Verif.Model.Validity

/-!
# Model of the copy constructors and of `copy_without_data`

`scri/waveform_base.py` lines 217-266 and 826-848; `scri/waveform_modes.py` lines 127-140, 389-394 and 946-951; `scri/waveform_grid.py` lines 194-199.  The lines that are recorded in the history are parameters.
-/

namespace Verif.CopyConstruct
open Verif Verif.Validity

/-- `self.history += lines` (line 725): for a list. -/
def record (lines : List (List Char)) (h : Hist) : Py Hist :=
  match h with
  | .list l => .ok (.list (l ++ lines.map some))
  | _ => .error .typeError

/-- The attributes set by the copy constructor (lines 241-253 of `scri/waveform_base.py`): the arrays are copied, the history is `other.history[:]` and the line of the constructor. -/
def copied (lines : List (List Char)) (other : WB) : Py WB := do
  let h ← record lines other.history
  pure { t := other.t, frame := other.frame, data := other.data, history := h, frameType := other.frameType, dataType := other.dataType, rScaled := other.rScaled, mScaled := other.mScaled }

/-- Lines 265-266, after `ensure_validity`: information is recorded. -/
def informed (after : List (List Char)) (w : WB) : Py WB := do
  let h ← record after w.history
  pure { w with history := h }

/-- `WaveformBase(other, override_exception_from_invalidity=override)`.  The value of `ensure_validity` is not used. -/
def baseCopy (conv : Arr → Option Attr) (lines after : List (List Char)) (override : Bool) (other : WB) : Py WB := do
  let w ← copied lines other
  let (w, _) ← baseValidity conv true (!override) w
  informed after w

/-- `WaveformModes(other, ...)`: `ell_min`, `ell_max` and `LM` are copied before (lines 127-133 of `scri/waveform_modes.py`); `ensure_validity` is that of `WaveformModes`. -/
def modesCopy (conv : Arr → Option Attr) (lines after : List (List Char)) (override : Bool) (other : WM) : Py WM := do
  let b ← copied lines other.base
  let (w, _) ← modesValidity conv true (!override) { base := b, ellMin := other.ellMin, ellMax := other.ellMax, LM := other.LM }
  let b ← informed after w.base
  pure { w with base := b }

/-- `WaveformGrid(other, n_theta=..., n_phi=..., ...)`: the numbers are taken from the keywords, and are 0 without them (lines 197-198 of `scri/waveform_grid.py`). -/
def gridCopy (conv : Arr → Option Attr) (lines after : List (List Char)) (override : Bool) (nTheta nPhi : Option Int) (other : WG) : Py WG := do
  let b ← copied lines other.base
  let (w, _) ← gridValidity conv true (!override) { base := b, nTheta := nTheta.getD 0, nPhi := nPhi.getD 0 }
  let b ← informed after w.base
  pure { w with base := b }

/-- `WaveformBase.copy_without_data` (lines 826-848): `t`, `frame` and `data` are those of `type(self)()`, which are empty. -/
def baseWithout (lines : List (List Char)) (w : WB) : Py WB := do
  let h ← record lines w.history
  pure { w with t := .arr ⟨.float, [0], []⟩, frame := .arr ⟨.quaternion, [0], []⟩, data := .arr ⟨.complex, [0, 0], []⟩, history := h }

/-- `WaveformModes.copy_without_data` (lines 946-951 of `scri/waveform_modes.py`) with `W.ells = 0, -1` (lines 389-394). -/
def modesWithout (lines : List (List Char)) (w : WM) : Py WM := do
  let b ← baseWithout lines w.base
  let l ← lmRange 0 (-1)
  pure { base := b, ellMin := 0, ellMax := -1, LM := l }

/-- `copy_without_data` of a `WaveformGrid`, which is that of `WaveformBase`: all other attributes are those of the object. -/
def gridWithout (lines : List (List Char)) (w : WG) : Py WG := do
  let b ← baseWithout lines w.base
  pure { w with base := b }

/-- `WaveformBase.copy` (lines 810-823 of `scri/waveform_base.py`): all attributes are copied, whatever the class. -/
def copyBase (lines : List (List Char)) (w : WB) : Py WB := do
  let h ← record lines w.history
  pure { w with history := h }

/-- The same method of a `WaveformModes`. -/
def copyModes (lines : List (List Char)) (w : WM) : Py WM := do
  let b ← copyBase lines w.base
  pure { w with base := b }

/-- The same method of a `WaveformGrid`. -/
def copyGrid (lines : List (List Char)) (w : WG) : Py WG := do
  let b ← copyBase lines w.base
  pure { w with base := b }

end Verif.CopyConstruct
