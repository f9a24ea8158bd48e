import Verif.Model.Validity
import Mathlib.Data.Rat.Defs

/-!
# What a consistent waveform is (C16)
-/

namespace Verif.Spec.Validity
open Verif.Validity

/-- Every component of an array is a finite number. -/
def Finite (a : Arr) : Prop := ∀ x ∈ a.comps, ∃ q, x = .fin q

/-- A consistent `WaveformBase`. -/
structure Valid (w : WB) (t f d : Arr) : Prop where
  /-- the arrays -/
  t_eq : w.t = .arr t
  frame_eq : w.frame = .arr f
  data_eq : w.data = .arr d
  /-- times: finite floats, strictly increasing -/
  t_dtype : t.dtype = .float
  t_finite : Finite t
  t_shape : t.size = 0 ∨ ∃ n, t.shape = [n]
  t_increasing : ∃ q : List Rat, t.comps = q.map .fin ∧ q.Pairwise (· < ·)
  /-- frame: finite quaternions; none, one, or one per time -/
  f_dtype : f.dtype = .quaternion
  f_finite : Finite f
  f_size : f.size = 0 ∨ f.size = 1 ∨ f.size = t.size
  /-- data: finite numbers, one row per time -/
  d_finite : Finite d
  d_shape : ∃ n rest trest, d.shape = n :: rest ∧ t.shape = n :: trest
  /-- bookkeeping -/
  history : ∃ s rest, w.history = .list (some s :: rest)
  frameType : ∃ z : Int, w.frameType = .int z ∧ 0 ≤ z ∧ z < 5
  dataType : ∃ z : Int, w.dataType = .int z ∧ 0 ≤ z ∧ z < 11
  rScaled : ∃ b, w.rScaled = some b
  mScaled : ∃ b, w.mScaled = some b

/-- A consistent `WaveformModes`, apart from the conditions on every waveform. -/
structure ValidModes (w : WM) (d : Arr) : Prop where
  ellMin : 0 ≤ w.ellMin
  ellMax : w.ellMin ≤ w.ellMax + 1
  LM : w.LM = Modes.LMRange w.ellMin w.ellMax
  data : w.base.data = .arr d
  dtype : d.dtype = .complex
  /-- one column per mode -/
  shape : ∃ n k rest, d.shape = n :: k :: rest ∧
    (k : Int) = (w.ellMax + 1) ^ 2 - w.ellMin ^ 2

/-- A consistent `WaveformGrid`, apart from the conditions on every waveform. -/
structure ValidGrid (w : WG) (d : Arr) : Prop where
  nTheta : 0 ≤ w.nTheta
  nPhi : 0 ≤ w.nPhi
  data : w.base.data = .arr d
  dtype : d.dtype = .complex
  shape : ∃ n k rest, d.shape = n :: k :: rest ∧ (k : Int) = w.nTheta * w.nPhi

/-- An array whose list of components has the length its shape says. -/
def Arr.WF (a : Arr) : Prop := a.comps.length = a.size * a.dtype.width

end Verif.Spec.Validity
