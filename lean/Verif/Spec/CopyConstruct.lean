import Verif.Model.Validity

/-!
# Specification: a copy of a waveform (C109)
-/

namespace Verif.Spec.CopyConstruct
open Verif.Validity

/-- The same attributes; the history is continued. -/
structure SameBase (w other : WB) : Prop where
  t : w.t = other.t
  frame : w.frame = other.frame
  data : w.data = other.data
  frameType : w.frameType = other.frameType
  dataType : w.dataType = other.dataType
  rScaled : w.rScaled = other.rScaled
  mScaled : w.mScaled = other.mScaled
  history : ∃ l more, other.history = .list l ∧ w.history = .list (l ++ more)

end Verif.Spec.CopyConstruct
