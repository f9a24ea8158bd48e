import Verif.Model.Exchange

/-!
# Specification: what a file of the RPXMB format keeps of a waveform (C110)
-/

namespace Verif.Spec.Rpxmb
open Verif.Exchange

/-- Everything but the data and the frame. -/
structure Keeps (V W : Wave) : Prop where
  t : V.w.base.t = W.w.base.t
  dataType : V.w.base.dataType = W.w.base.dataType
  rScaled : V.w.base.rScaled = W.w.base.rScaled
  mScaled : V.w.base.mScaled = W.w.base.mScaled
  ellMin : V.w.ellMin = W.w.ellMin
  ellMax : V.w.ellMax = W.w.ellMax
  LM : V.w.LM = W.w.LM
  versionHist : V.versionHist = W.versionHist

end Verif.Spec.Rpxmb
