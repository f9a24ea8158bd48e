import Verif.Model.Modes
import Verif.Model.History

/-!
# Model of `ensure_validity`

`scri/waveform_base.py` lines 64-81 (`test_without_assertions`, `test_with_assertions`) and 272-428
(`ensure_validity`, `is_valid`); `scri/waveform_modes.py` lines 264-343; `scri/waveform_grid.py` lines
201-264.

An array is its element type, its shape and the flat list of its floating point components.  The
texts of the messages are not modelled (building them reads the same attributes as the test itself;
the one exception, `max(np.diff(t))` for a `t` that is not one-dimensional, can raise where the model
records a failed test).  The history lines written by the wrapper are the subject of
`Verif.Model.History` and are left out here.
-/

namespace Verif.Validity

/-- A floating point number; the value of a finite one is exact. -/
inductive Fl where
  | fin (q : Rat)
  | pinf
  | ninf
  | nan

def Fl.isFinite : Fl → Bool
  | .fin _ => true
  | _ => false

/-- `b - a > 0.0` -/
def Fl.diffPos : Fl → Fl → Bool
  | .fin a, .fin b => decide (a < b)
  | .fin _, .pinf => true
  | .ninf, .fin _ => true
  | .ninf, .pinf => true
  | _, _ => false

inductive DType where
  | float
  | complex
  | quaternion
  | other
  deriving DecidableEq

/-- `np.ndarray` -/
structure Arr where
  dtype : DType
  shape : List Nat
  comps : List Fl

/-- Number of floating point components of one element. -/
def DType.width : DType → Nat
  | .float => 1
  | .complex => 2
  | .quaternion => 4
  | .other => 1

def Arr.size (a : Arr) : Nat := a.shape.prod
def Arr.ndim (a : Arr) : Nat := a.shape.length
/-- `np.all(np.isfinite(a))` -/
def Arr.allFinite (a : Arr) : Bool := a.comps.all Fl.isFinite
/-- `a.shape[k]` -/
def Arr.dim (a : Arr) (k : Nat) : Py Nat :=
  match a.shape[k]? with
  | some n => .ok n
  | none => .error .indexError

/-- All adjacent pairs pass. -/
def adjacent (r : Fl → Fl → Bool) : List Fl → Bool
  | [] => true
  | [_] => true
  | a :: b :: l => r a b && adjacent r (b :: l)

/-- `np.all(np.diff(t) > 0.0)`.  For a one-dimensional array; for others numpy would use the last
axis, but then the preceding test has failed already. -/
def Arr.increasing (a : Arr) : Bool := adjacent Fl.diffPos a.comps

/-- An attribute that should hold an array. -/
inductive Attr where
  | none
  | arr (a : Arr)
  | other

def Attr.isArr : Attr → Bool
  | .arr _ => true
  | _ => false

/-- Attribute access such as `self.t.dtype`: an `AttributeError` if it is not an array. -/
def Attr.get : Attr → Py Arr
  | .arr a => .ok a
  | _ => .error .attributeError

/-- An attribute that should hold an integer. -/
inductive Num where
  | int (z : Int)
  | float (q : Rat)
  | other

def Num.isIntegral : Num → Bool
  | .int _ => true
  | _ => false

/-- `x in [0, ..., n-1]` (`FrameType` and `DataType`, `scri/__init__.py` lines 78-81). -/
def Num.inRange (n : Nat) : Num → Bool
  | .int z => (List.range n).any fun k => z == (k : Int)
  | .float q => (List.range n).any fun k => q == (k : Rat)
  | .other => false

inductive Hist where
  | none
  | str (s : List Char)
  /-- entries: the string, or `none` for something that is not a string -/
  | list (l : List (Option (List Char)))
  | other

def Hist.isFalsy : Hist → Bool
  | .none => true
  | .str s => s.isEmpty
  | .list l => l.isEmpty
  | .other => false

def Hist.isList : Hist → Bool
  | .list _ => true
  | _ => false

/-- `isinstance(self.history[0], str)` -/
def Hist.firstIsStr : Hist → Py Bool
  | .none => .error .typeError
  | .str [] => .error .indexError
  | .str (_ :: _) => .ok true
  | .list [] => .error .indexError
  | .list (x :: _) => .ok x.isSome
  | .other => .error .typeError

/-- The attributes of a `WaveformBase`; `none` for a flag is anything that is not a `bool`.  `num` is
always an integer. -/
structure WB where
  t : Attr
  frame : Attr
  data : Attr
  history : Hist
  frameType : Num
  dataType : Num
  rScaled : Option Bool
  mScaled : Option Bool

/-- `test(errors, value, message)` (lines 64-81); `errs` is the number of messages so far. -/
def test (assertions : Bool) (errs : Nat) (v : Bool) : Py Nat :=
  if v then .ok errs
  else if assertions then .error .assertion
  else .ok (errs + 1)

/-- The statements of `ensure_validity`: a test, or an alteration guarded by `alter`. -/
inductive Stmt (σ : Type) where
  | check (c : σ → Py Bool)
  | alter (f : σ → Py σ)

def runStmts {σ : Type} (alter assertions : Bool) : List (Stmt σ) → σ → Nat → Py (σ × Nat)
  | [], w, errs => .ok (w, errs)
  | .check c :: l, w, errs => do
    let v ← c w
    let errs ← test assertions errs v
    runStmts alter assertions l w errs
  | .alter f :: l, w, errs =>
    if alter then do
      let w ← f w
      runStmts alter assertions l w errs
    else runStmts alter assertions l w errs

/-- `self.t = self.t[:, 0]` if `self.t.ndim == 2 and self.t.shape[1] == 1` (lines 309-311). -/
def alterT (w : WB) : Py WB := do
  let t ← w.t.get
  match t.shape with
  | [n, 1] => .ok { w with t := .arr { t with shape := [n] } }
  | _ => .ok w

/-- `self.frame = np.empty((0,), dtype=np.quaternion)` if it is `None` (lines 328-330). -/
def alterFrameNone (w : WB) : Py WB :=
  match w.frame with
  | .none => .ok { w with frame := .arr ⟨.quaternion, [0], []⟩ }
  | _ => .ok w

/-- `quaternion.as_quat_array(self.frame)` if it has float elements (lines 336-341).  `conv` is the
external function; `none` if it raises `AssertionError` or `ValueError`. -/
def alterFrameFloat (conv : Arr → Option Attr) (w : WB) : Py WB := do
  let f ← w.frame.get
  if f.dtype = .float then
    match conv f with
    | some g => .ok { w with frame := g }
    | none => .ok w
  else .ok w

/-- `self.history = [""]` if it is empty (lines 372-374). -/
def alterHistEmpty (w : WB) : Py WB :=
  if w.history.isFalsy then .ok { w with history := .list [some []] } else .ok w

/-- `self.history.split("\n")` if it is a string (lines 375-377). -/
def alterHistStr (w : WB) : Py WB :=
  match w.history with
  | .str s => .ok { w with history := .list ((History.splitLines s).map some) }
  | _ => .ok w

/-- The body of `WaveformBase.ensure_validity` (lines 299-412), in order. -/
def baseStmts (conv : Arr → Option Attr) : List (Stmt WB) :=
  [ .check fun w => .ok w.t.isArr,
    .check fun w => do let t ← w.t.get; pure (t.dtype == .float),
    .alter alterT,
    .check fun w => do let t ← w.t.get; pure (t.size == 0 || t.ndim == 1),
    .check fun w => do let t ← w.t.get; pure (decide (t.size ≤ 1) || t.increasing),
    .check fun w => do let t ← w.t.get; pure t.allFinite,
    .alter alterFrameNone,
    .check fun w => .ok w.frame.isArr,
    .alter (alterFrameFloat conv),
    .check fun w => do let f ← w.frame.get; pure (f.dtype == .quaternion),
    .check fun w => do
      let f ← w.frame.get
      let t ← w.t.get
      pure (decide (f.size ≤ 1) || f.size == t.size),
    .check fun w => do let f ← w.frame.get; pure f.allFinite,
    .check fun w => .ok w.data.isArr,
    .check fun w => do let d ← w.data.get; pure (decide (d.ndim ≥ 1)),
    .check fun w => do
      let d ← w.data.get
      let t ← w.t.get
      let n ← d.dim 0
      let k ← t.dim 0
      pure (n == k),
    .check fun w => do let d ← w.data.get; pure d.allFinite,
    .alter alterHistEmpty,
    .alter alterHistStr,
    .check fun w => .ok w.history.isList,
    .check fun w => w.history.firstIsStr,
    .check fun w => .ok w.frameType.isIntegral,
    .check fun w => .ok (w.frameType.inRange 5),
    .check fun w => .ok w.dataType.isIntegral,
    .check fun w => .ok (w.dataType.inRange 11),
    .check fun w => .ok w.rScaled.isSome,
    .check fun w => .ok w.mScaled.isSome ]

/-- `WaveformBase.ensure_validity(alter, assertions)`: the object afterwards and the result. -/
def baseValidity (conv : Arr → Option Attr) (alter assertions : Bool) (w : WB) : Py (WB × Bool) := do
  let (w, errs) ← runStmts alter assertions (baseStmts conv) w 0
  if errs ≠ 0 then .ok (w, false) else .ok (w, true)

/-- `is_valid` (lines 426-428) -/
def isValid (conv : Arr → Option Attr) (w : WB) : Py Bool := do
  let (_, b) ← baseValidity conv false false w
  pure b

/-- A `WaveformModes`; `ell_min` and `ell_max` are taken to be integers. -/
structure WM where
  base : WB
  ellMin : Int
  ellMax : Int
  LM : List (Int × Int)

/-- `sf.LM_range`, which allocates `(ell_max+1)^2 - ell_min^2` rows. -/
def lmRange (ellMin ellMax : Int) : Py (List (Int × Int)) :=
  if (ellMax + 1) ^ 2 - ellMin ^ 2 < 0 then .error .valueError else .ok (Modes.LMRange ellMin ellMax)

/-- `self.__LM = sf.LM_range(...)` if it differs (`scri/waveform_modes.py` lines 305-309). -/
def alterLM (w : WM) : Py WM := do
  let l ← lmRange w.ellMin w.ellMax
  if w.LM ≠ l then .ok { w with LM := l } else .ok w

/-- The tests of `WaveformModes.ensure_validity` (lines 288-326). -/
def modesStmts : List (Stmt WM) :=
  [ .check fun w => .ok (decide (w.ellMin ≥ 0)),
    .check fun w => .ok (decide (w.ellMax ≥ w.ellMin - 1)),
    .alter alterLM,
    .check fun w => do let l ← lmRange w.ellMin w.ellMax; pure (w.LM == l),
    .check fun w => do let d ← w.base.data.get; pure (d.dtype == .complex),
    .check fun w => do let d ← w.base.data.get; pure (decide (d.ndim ≥ 2)),
    .check fun w => do let d ← w.base.data.get; let n ← d.dim 1; pure (n == w.LM.length) ]

/-- `WaveformModes.ensure_validity` (lines 264-343): the value of `super().ensure_validity(...)`
(line 338) is not used. -/
def modesValidity (conv : Arr → Option Attr) (alter assertions : Bool) (w : WM) : Py (WM × Bool) := do
  let (w, errs) ← runStmts alter assertions modesStmts w 0
  if errs ≠ 0 then .ok (w, false)
  else do
    let (b, _) ← baseValidity conv alter assertions w.base
    .ok ({ w with base := b }, true)

/-- A `WaveformGrid`; `n_theta` and `n_phi` are taken to be integers. -/
structure WG where
  base : WB
  nTheta : Int
  nPhi : Int

/-- The tests of `WaveformGrid.ensure_validity` (`scri/waveform_grid.py` lines 221-250). -/
def gridStmts : List (Stmt WG) :=
  [ .check fun w => .ok (decide (w.nTheta ≥ 0)),
    .check fun w => .ok (decide (w.nPhi ≥ 0)),
    .check fun w => do let d ← w.base.data.get; pure (d.dtype == .complex),
    .check fun w => do let d ← w.base.data.get; pure (decide (d.ndim ≥ 2)),
    .check fun w => do
      let d ← w.base.data.get
      let n ← d.dim 1
      pure ((n : Int) == w.nTheta * w.nPhi) ]

/-- `WaveformGrid.ensure_validity` (lines 201-264); again the base class's verdict is dropped. -/
def gridValidity (conv : Arr → Option Attr) (alter assertions : Bool) (w : WG) : Py (WG × Bool) := do
  let (w, errs) ← runStmts alter assertions gridStmts w 0
  if errs ≠ 0 then .ok (w, false)
  else do
    let (b, _) ← baseValidity conv alter assertions w.base
    .ok ({ w with base := b }, true)

end Verif.Validity
