import Verif.Py.Slice
import Verif.Model.Modes

/-!
# Model of `WaveformModes.__getitem__` and `WaveformBase.__getitem__`

`scri/waveform_modes.py` lines 953-1021 and `scri/waveform_base.py` lines 916-947.  History and the
copied information fields are not modelled here (see `Verif.Model.History`).  Numpy index arrays
and masks as time index are not modelled.
-/

namespace Verif.Slicing
open Verif.Modes

/-- Times, frame, data (one list per time, `nCols` columns) and ell range of a `WaveformModes`.
`frame` may have as many entries as `t`, one entry (constant frame), or none. -/
structure WM (τ Q K : Type) where
  t : List τ
  frame : List Q
  data : List (List K)
  nCols : Nat
  ellMin : Int
  ellMax : Int
  deriving DecidableEq

/-- One component of a key. -/
inductive Sub where
  | int (i : Int)
  | slice (s : PySlice)
  | other
  deriving DecidableEq

/-- The argument of `[]`. -/
inductive Key where
  | single (k : Sub)
  | tuple (l : List Sub)
  deriving DecidableEq

variable {τ Q K : Type}

/-- `self.t[k]`, `self.frame[k]`, `self.data[k]` of `WaveformBase.__getitem__` (lines 931-941), with
`colSlice` the second entry of a 2-tuple key.  For an integer the returned object has a
zero-dimensional `t`; that case always ends in an `IndexError` in the `ells` setter (see
`modesGetitem`), which is raised here at once. -/
def sliceArrays (W : WM τ Q K) (k : Sub) (colSlice : Option PySlice) : Py (WM τ Q K) :=
  match k with
  | .slice s => do
    let t ← pySlice W.t s
    let frame ← pySlice W.frame s
    let rows ← pySlice W.data s
    match colSlice with
    | none => pure { W with t := t, frame := frame, data := rows }
    | some c => do
      let cols ← c.positions W.nCols
      pure { W with t := t, frame := frame, data := rows.map (gather · cols), nCols := cols.length }
  | .int i => do
    let _ ← pyGet W.t i
    let _ ← pyGet W.frame i
    let _ ← pyGet W.data i
    .error .indexError
  | .other => .error .other

/-- `WaveformBase.__getitem__` with a 2-tuple (line 930: `2 <= len(key) <= self.n_data_sets`, where
`n_data_sets` is the number of columns). -/
def baseGetitem2 (W : WM τ Q K) (k : Sub) (c : PySlice) : Py (WM τ Q K) :=
  if 2 ≤ W.nCols then sliceArrays W k (some c) else .error .valueError

/-- `ells` setter (`scri/waveform_modes.py` lines 386-402).  `sf.LM_range` allocates
`(ell_max+1)^2 - ell_min^2` rows, so a negative number is a `ValueError`; a mismatch with the
data is only a warning. -/
def setElls (W : WM τ Q K) (ellMin ellMax : Int) : Py (WM τ Q K) :=
  if (ellMax + 1) ^ 2 - ellMin ^ 2 < 0 then .error .valueError
  else .ok { W with ellMin := ellMin, ellMax := ellMax }

/-- Python truth value of an optional integer: `not x`. -/
def falsy : Option Int → Bool
  | none => true
  | some v => v == 0

/-- `new_ell_min`, `new_ell_max`, `new_slice` (`scri/waveform_modes.py` lines 968-1004). -/
def ellRange (ellMin ellMax : Int) : Sub → Py (Int × Int × PySlice)
  | .int ell =>
    if ell < ellMin ∨ ell > ellMax then .error .valueError
    else .ok (ell, ell, ⟨some (ell ^ 2 - ellMin ^ 2), some (ell * (ell + 2) + 1 - ellMin ^ 2), none⟩)
  | .slice s =>
    if !falsy s.step && s.step != some 1 then .error .valueError
    else if falsy s.start && s.stop == some 0 then .ok (0, -1, ⟨none, some 0, none⟩)
    else
      let newMin := if falsy s.start then ellMin else s.start.getD 0
      let newMax := if falsy s.stop then ellMax else s.stop.getD 0 - 1
      if newMin < ellMin ∨ newMax > ellMax then .error .valueError
      else .ok (newMin, newMax,
        ⟨some (newMin ^ 2 - ellMin ^ 2), some (newMax * (newMax + 2) + 1 - ellMin ^ 2), none⟩)
  | .other => .error .valueError

/-- `WaveformModes.__getitem__` after the removal of a trivial tuple (lines 966-1013). -/
def getitemCore (W : WM τ Q K) : Key → Py (WM τ Q K)
  | .tuple [k, e] => do
    let (newMin, newMax, c) ← ellRange W.ellMin W.ellMax e
    let V ← baseGetitem2 W k c
    setElls V newMin newMax
  | .single (.slice s) => do
    let V ← sliceArrays W (.slice s) none
    setElls V W.ellMin W.ellMax
  | .single (.int i) => do
    let V ← sliceArrays W (.int i) none
    setElls V W.ellMin W.ellMax
  | _ => .error .valueError

/-- `WaveformModes.__getitem__` (lines 953-1021). -/
def getitem (W : WM τ Q K) : Key → Py (WM τ Q K)
  | .tuple [k] => getitemCore W (.single k)
  | key => getitemCore W key

end Verif.Slicing
