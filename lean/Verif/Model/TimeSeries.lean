import Verif.Py.Basic
import Mathlib.Data.Complex.Basic

/-!
# Model of `ModesTimeSeries` (`scri/modes_time_series.py` lines 21-140)

The constructor, `interpolate`, and the derivatives and integrals that are defined by it.  Objects are values here; which arrays are shared is the subject of `Model/AbdHeap`.
-/

namespace Verif.TimeSeries

open Verif

/-- An array of complex numbers with at least two axes: `shape = lead + (rows, cols)`. -/
structure Arr where
  lead : List Nat
  rows : Nat
  cols : Nat
  get : List Nat → Nat → Nat → ℂ

/-- `array.size` -/
def Arr.size (a : Arr) : Nat := a.lead.prod * a.rows * a.cols

/-- The argument `input_array`: a number, an array with one axis, or an array with more. -/
inductive Input where
  | scalar (x : ℂ)
  | vec (n : Nat) (f : Nat → ℂ)
  | arr (a : Arr)

/-- The elements of an array of times: 64-bit floats or 64-bit integers. -/
inductive Scalars where
  | floats (xs : List ℝ)
  | ints (xs : List Int)

/-- An array of times with `ndim` axes, and its elements in order. -/
structure TimeArr where
  ndim : Nat
  vals : Scalars

def Scalars.length : Scalars → Nat
  | .floats xs => xs.length
  | .ints xs => xs.length

/-- The numbers in the array. -/
def Scalars.numbers : Scalars → List ℝ
  | .floats xs => xs
  | .ints xs => xs.map fun n : Int => (n : ℝ)

/-- The argument `multiplication_truncator`. -/
inductive Trunc where
  | sum
  | max
  | other (n : Nat)
  deriving DecidableEq

/-- Keyword arguments, or the dictionary `_metadata` of an array. -/
structure Meta where
  spin : Option Int := none
  ellMin : Option Int := none
  ellMax : Option Int := none
  trunc : Option Trunc := none
  time : Option TimeArr := none

/-- `metadata.update(**kwargs)` -/
def Meta.update (m kw : Meta) : Meta :=
  { spin := kw.spin <|> m.spin, ellMin := kw.ellMin <|> m.ellMin, ellMax := kw.ellMax <|> m.ellMax, trunc := kw.trunc <|> m.trunc, time := kw.time <|> m.time }

/-- What `spherical_functions.Modes` makes of the keyword arguments, with its defaults. -/
structure Labels where
  spin : Int
  ellMin : Int
  ellMax : Int
  trunc : Trunc
  deriving DecidableEq

/-- External functions.  `bits n` is the float with the bits of the integer `n` (used where this is not a subnormal number, see `viewFloat`).  `modes` is the constructor of
`spherical_functions.Modes`, for data and the metadata of its argument updated by the keyword arguments.  `fit times values n` is the `n`-th derivative of the cubic spline through the points, or
for `n < 0` the antiderivative of order `-n` (`scipy.interpolate.CubicSpline`, `derivative`, `antiderivative`). -/
structure Ext where
  bits : Int → ℝ
  modes : Arr → Meta → Py (Labels × Arr)
  fit : List ℝ → List ℂ → Int → ℝ → ℂ

/-- `np.asarray(time).view(float)` (line 32): the bytes of the array are read as floats.  The bits of an integer between 0 and `2 ^ 52` are those of a multiple of the least subnormal number. -/
noncomputable def viewFloat (ext : Ext) : Scalars → List ℝ
  | .floats xs => xs
  | .ints xs => xs.map fun n : Int => if 0 ≤ n ∧ n < 2 ^ 52 then (n : ℝ) * (1 / 2 ^ 1074) else ext.bits n

/-- A `ModesTimeSeries`. -/
structure Series where
  arr : Arr
  labels : Labels
  time : List ℝ

/-- The metadata of a series, as keyword arguments. -/
def Series.metadata (s : Series) : Meta :=
  { spin := some s.labels.spin, ellMin := some s.labels.ellMin, ellMax := some s.labels.ellMax, trunc := some s.labels.trunc, time := some ⟨1, .floats s.time⟩ }

/-- Lines 35-43: axes are added, and the number of rows is checked if there are two axes or more. -/
def shaped (input : Input) (n : Nat) : Py Arr :=
  match input with
  | .scalar x => .ok ⟨[], 1, 1, fun _ _ _ => x⟩
  | .vec m f => .ok ⟨[], 1, m, fun _ _ j => f j⟩
  | .arr a => if a.rows ≠ n ∧ a.rows ≠ 1 then .error .valueError else .ok a

/-- `ModesTimeSeries(input_array, *args, **kwargs)` (lines 21-46) for complex data; `own` is the metadata of `input_array`. -/
noncomputable def construct (ext : Ext) (input : Input) (own : Meta) (args : List TimeArr) (kw : Meta) : Py Series :=
  if args.length > 2 then .error .valueError
  else
    let kw := match args with
      | [t] => { kw with time := some t }
      | _ => kw
    match (own.update kw).time with
    | none => .error .valueError
    | some time =>
      let t := viewFloat ext time.vals
      if time.ndim ≠ 1 then .error .valueError
      else do
        let a ← shaped input t.length
        let r ← ext.modes a (own.update kw)
        pure ⟨r.2, r.1, t⟩

/-- The argument `out`. -/
structure Out where
  arr : Arr
  complex : Bool

/-- Lines 77-84. -/
def checkOut (lead : List Nat) (rows cols : Nat) : Option Out → Py Unit
  | none => .ok ()
  | some o =>
    if o.arr.lead ≠ lead ∨ o.arr.rows ≠ rows ∨ o.arr.cols ≠ cols then .error .valueError
    else if o.complex = false then .error .valueError
    else .ok ()

open Classical in
/-- `out or np.empty(...)` (line 85): whether `out` is used.  An array with more than one element has no truth value; an array with one element has that of the element; an empty array is false. -/
noncomputable def useOut : Option Out → Py Bool
  | none => .ok false
  | some o =>
    if 1 < o.arr.size then .error .valueError
    else if o.arr.size = 1 then .ok (decide (o.arr.get (o.arr.lead.map fun _ => 0) 0 0 ≠ 0))
    else .ok false

open Classical in
/-- `CubicSpline(self.u, data, axis=-2)` (line 90) raises unless there are two times or more, they increase, and there are as many as rows. -/
noncomputable def fits (s : Series) : Bool := decide (2 ≤ s.time.length ∧ s.time.Pairwise (· < ·) ∧ s.arr.rows = s.time.length)

/-- One column of the data. -/
def column (a : Arr) (i : List Nat) (j : Nat) : List ℂ := (List.range a.rows).map fun r => a.get i r j

/-- Lines 90-95: the spline, its derivative or antiderivative, at the new times. -/
noncomputable def evaluate (ext : Ext) (s : Series) (newTime : List ℝ) (order : Int) : Arr :=
  ⟨s.arr.lead, newTime.length, s.arr.cols, fun i r j => ext.fit s.time (column s.arr i j) order (newTime.getD r 0)⟩

/-- `interpolate(new_time, derivative_order, out)` (lines 72-98).  The second result is `out` after the call. -/
noncomputable def interpolate (ext : Ext) (s : Series) (newTime : TimeArr) (order : Int) (out : Option Out) : Py (Series × Option Out) :=
  if newTime.ndim ≠ 1 then .error .valueError
  else do
    checkOut s.arr.lead newTime.vals.length s.arr.cols out
    let used ← useOut out
    if order > 3 then .error .valueError
    else if fits s = false then .error .valueError
    else do
      let result := evaluate ext s newTime.vals.numbers order
      let r ← construct ext (.arr result) {} [] { s.metadata with time := some newTime }
      pure (r, if used then out.map fun o => { o with arr := result } else out)

/-- The call without `out`. -/
noncomputable def interpolated (ext : Ext) (s : Series) (newTime : TimeArr) (order : Int) : Py Series := do
  let r ← interpolate ext s newTime order none
  pure r.1

/-- `antiderivative` (lines 100-102). -/
noncomputable def antiderivative (ext : Ext) (s : Series) (n : Int := 1) : Py Series := interpolated ext s ⟨1, .floats s.time⟩ (-n)

/-- `derivative` (lines 104-106). -/
noncomputable def derivative (ext : Ext) (s : Series) (n : Int := 1) : Py Series := interpolated ext s ⟨1, .floats s.time⟩ n

/-- `dot` (lines 108-111). -/
noncomputable def dot (ext : Ext) (s : Series) : Py Series := derivative ext s

/-- `ddot` (lines 113-116). -/
noncomputable def ddot (ext : Ext) (s : Series) : Py Series := derivative ext s 2

/-- `int` (lines 118-121). -/
noncomputable def int (ext : Ext) (s : Series) : Py Series := antiderivative ext s

/-- `iint` (lines 123-126). -/
noncomputable def iint (ext : Ext) (s : Series) : Py Series := antiderivative ext s 2

end Verif.TimeSeries
