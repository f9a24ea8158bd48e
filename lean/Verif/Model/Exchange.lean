import Verif.Model.Validity
import Verif.Model.DataTypes

/-!
# Model of the exchange with `sxs.WaveformModes` (`scri/waveform_modes.py` lines 142-201 and 203-262)

Arrays are those of `Model/Validity`.  Values that the `sxs` object shares with the waveform are copied here.
-/

namespace Verif.Exchange
open Verif Verif.Validity Verif.DataTypes

/-- `scri.FrameNames` (`scri/__init__.py` line 79) -/
def frameNames : List (List Char) :=
  [['U','n','k','n','o','w','n','F','r','a','m','e','T','y','p','e'], ['I','n','e','r','t','i','a','l'], ['C','o','p','r','e','c','e','s','s','i','n','g'], ['C','o','o','r','b','i','t','a','l'],
    ['C','o','r','o','t','a','t','i','n','g']]

/-- `scri.DataNames` (`scri/__init__.py` line 82) -/
def dataNames : List (List Char) :=
  [['U','n','k','n','o','w','n','D','a','t','a','T','y','p','e'], ['P','s','i','0'], ['P','s','i','1'], ['P','s','i','2'], ['P','s','i','3'], ['P','s','i','4'], ['s','i','g','m','a'], ['h'],
    ['h','d','o','t'], ['n','e','w','s'], ['p','s','i','n']]

/-- A `WaveformModes`, its `version_hist`, and the attributes that extrapolation and transformations attach to it. -/
structure Wave where
  w : WM
  versionHist : List (List Char × List Char)
  radii : Option (List Fl)
  translation : Option (List Fl)
  boost : Option (List Fl)

/-- An entry of `register_modification`. -/
inductive Modification where
  | extrapolate (radii : List Fl)
  | transform (translation boost : List Fl)

/-- The `sxs.WaveformModes` object: its arrays and the part of its metadata that is used.  `none` if a keyword was not passed.  A frame is its array of floats. -/
structure Sxs where
  time : Attr
  data : Attr
  frame : Option Arr
  dataType : List Char
  frameType : List Char
  history : Option Hist
  versionHist : Option (List (List Char × List Char))
  rScaled : Option (Option Bool)
  mScaled : Option (Option Bool)
  ellMin : Int
  ellMax : Int
  modifications : List Modification

/-- `quaternion.as_float_array` -/
def asFloat (a : Arr) : Arr := { a with dtype := .float, shape := a.shape ++ [4] }

/-- `quaternion.as_quat_array`, for an array of floats whose last dimension is 4. -/
def asQuat (a : Arr) : Arr := { a with dtype := .quaternion, shape := a.shape.dropLast }

/-- `DataNames[self.dataType]`, `FrameNames[self.frameType]` (`scri/waveform_base.py` lines 474-480) -/
def nameOf (names : List (List Char)) : Num → Py (List Char)
  | .int z => Verif.pyGet names z
  | _ => .error .typeError

/-- The keyword `frame` of `to_sxs` (lines 232-241). -/
def frameOut (f : Arr) (nTimes : Nat) : Py (Option Arr) :=
  if f.size = 1 then .ok (some { asFloat f with shape := 1 :: (asFloat f).shape })
  else if f.size = nTimes then .ok (some (asFloat f))
  else if f.size > 0 then .error .valueError
  else .ok none

/-- The special cases (lines 245-260). -/
def modifications (W : Wave) : List Modification :=
  (match W.radii with
    | some r => [Modification.extrapolate r]
    | none => []) ++
  (match W.translation, W.boost with
    | none, none => []
    | s, b => [Modification.transform (s.getD [.fin 0, .fin 0, .fin 0]) (b.getD [.fin 0, .fin 0, .fin 0])])

/-- `to_sxs` (lines 203-262). -/
def toSxs (W : Wave) : Py Sxs := do
  let dt ← nameOf dataNames W.w.base.dataType
  let ft ← nameOf frameNames W.w.base.frameType
  let f ← W.w.base.frame.get
  let t ← W.w.base.t.get
  let n ← t.dim 0
  let frame ← frameOut f n
  pure { time := W.w.base.t, data := W.w.base.data, frame := frame, dataType := lower dt, frameType := lower ft, history := some W.w.base.history, versionHist := some W.versionHist,
         rScaled := some W.w.base.rScaled, mScaled := some W.w.base.mScaled, ellMin := W.w.ellMin, ellMax := W.w.ellMax, modifications := modifications W }

/-- `w_sxs.frame`: the identity, of shape (1, 4), if none was passed. -/
def Sxs.frameArr (s : Sxs) : Arr := s.frame.getD ⟨.float, [1, 4], [.fin 1, .fin 0, .fin 0, .fin 0]⟩

/-- `[n.lower() for n in names].index(name.lower())`, 0 if there is none (lines 157-165). -/
def typeOf (names : List (List Char)) (name : List Char) : Num :=
  if lower name ∈ names.map lower then .int ((names.map lower).idxOf (lower name)) else .int 0

/-- `np.array_equal(frame, [[1.,0,0,0]])` -/
def isIdentity (a : Arr) : Bool :=
  decide (a.shape = [1, 4]) && match a.comps with
    | [.fin w, .fin x, .fin y, .fin z] => decide (w = 1 ∧ x = 0 ∧ y = 0 ∧ z = 0)
    | _ => false

/-- The keyword `frame` of `from_sxs` (lines 188-199).  The last case builds its message from `self`, which is not defined in a class method. -/
def frameIn (a : Arr) (nTimes : Nat) : Py Arr :=
  if isIdentity a then .ok ⟨.quaternion, [0], []⟩
  else match a.shape with
    | [] => .error .indexError
    | 1 :: rest => .ok (asQuat { a with shape := rest })
    | n :: _ => if n = nTimes then .ok (asQuat a) else .error .nameError

/-- `history` of `from_sxs` (lines 167-169). -/
def historyIn (s : Sxs) : Hist :=
  match s.history with
  | none => .list []
  | some (.str h) => .list ((History.splitLines h).map some)
  | some h => h

/-- `self.history += lines`, for the lists that `_append_history` makes. -/
def appended (h : Hist) (lines : List (List Char)) : Py Hist :=
  match h with
  | .list l => .ok (.list (l ++ lines.map some))
  | .none => .error .typeError
  | .str _ => .error .typeError
  | .other => .error .typeError

/-- `WaveformModes(**kwargs)` (lines 117-140, and `scri/waveform_base.py` lines 215-236 and 258-271).  `line` is the constructor statement, `closing` the lines with host name, directory, time and versions. -/
def construct (conv : Arr → Option Attr) (override : Bool) (line closing : List (List Char)) (b : WB) (ellMin ellMax : Int) : Py WM := do
  let l ← lmRange ellMin ellMax
  let h ← appended b.history line
  let (w, _) ← modesValidity conv true (!override) ⟨{ b with history := h }, ellMin, ellMax, l⟩
  let h' ← appended w.base.history closing
  pure { w with base := { w.base with history := h' } }

/-- `from_sxs` (lines 142-201). -/
def fromSxs (conv : Arr → Option Attr) (override : Bool) (line closing : List (List Char)) (s : Sxs) : Py Wave := do
  let t ← s.time.get
  let f ← frameIn s.frameArr t.size
  let w ← construct conv override line closing
    { t := s.time, frame := .arr f, data := s.data, history := historyIn s, frameType := typeOf frameNames s.frameType, dataType := typeOf dataNames s.dataType,
      rScaled := s.rScaled.getD (some true), mScaled := s.mScaled.getD (some true) } s.ellMin s.ellMax
  pure { w := w, versionHist := s.versionHist.getD [], radii := none, translation := none, boost := none }

end Verif.Exchange
