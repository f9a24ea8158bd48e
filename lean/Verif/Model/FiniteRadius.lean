import Verif.Model.Weights
import Verif.Model.Monotonic
import Verif.Model.Intersection
import Verif.Model.SpecFile
import Mathlib.Analysis.SpecialFunctions.Log.Basic
import Mathlib.Analysis.SpecialFunctions.Pow.Real
import Mathlib.Algebra.Order.Floor.Semiring

/-!
# Reading finite-radius data for the extrapolation

`scri/extrapolation.py`: `pick_Ch_mass` (lines 7-23), `validate_single_waveform` and `validate_group_of_waveforms` (126-215), the reading functions (247-507), `set_common_time` (509-523) and
the choice of the outermost data in `extrapolate` (707-715).
-/

namespace Verif.FiniteRadius

open Verif

abbrev Str := List Char

/-- The attributes of a waveform that reading uses or sets; `data` has one row for each time. -/
structure Wave where
  dataType : Int
  t : List ℝ
  data : List (List ℂ)
  frame : List (Quaternion ℝ)
  mScaled : Bool

/-- What is read beside the modes (lines 258-268 and 324-338): `times` is the time column of `AverageLapse.dat` or, for the formats rpxmb and rpdmb, `waveform.t`; `lapse` and `areal` are the values of
`AverageLapse.dat` and `ArealRadius.dat`; `coord` and `energy` those of `CoordRadius.dat` and `InitialAdmEnergy.dat`. -/
structure Aux where
  times : List ℝ
  lapse : List ℝ
  areal : List ℝ
  coord : ℝ
  energy : ℝ

/-- Indexing of an array with an array of indices. -/
def pick {α : Type} (l : List α) (I : List Nat) : Py (List α) :=
  if ∀ i ∈ I, i < l.length then .ok (I.filterMap fun i => l[i]?) else .error .indexError

/-- `scipy.integrate.cumulative_trapezoid(y, x)` plus a constant: the integrals up to the second, third, … point. -/
noncomputable def cumTrap (acc : ℝ) : List ℝ → List ℝ → List ℝ
  | y0 :: y1 :: ys, x0 :: x1 :: xs =>
    (acc + (x1 - x0) * (y0 + y1) / 2) :: cumTrap (acc + (x1 - x0) * (y0 + y1) / 2) (y1 :: ys) (x1 :: xs)
  | _, _ => []

/-- `AverageLapse / sqrt(((-2.0 * InitialAdmEnergy) / Radii) + 1.0)` (lines 357-358) at one time. -/
noncomputable def rate (E lapse R : ℝ) : ℝ := lapse / Real.sqrt (-2 * E / R + 1)

/-- `Radii + (2.0 * InitialAdmEnergy) * log((Radii / (2.0 * InitialAdmEnergy)) - 1.0)` (lines 359-360) at one time. -/
noncomputable def tortoise (E R : ℝ) : ℝ := R + 2 * E * Real.log (R / (2 * E) - 1)

/-- Lines 357-360. -/
noncomputable def retime (E : ℝ) (T lapse R : List ℝ) : Py (List ℝ) :=
  match T with
  | [] => .error .indexError
  | t0 :: ts =>
    .ok (List.zipWith (fun t r => t - tortoise E r) (t0 :: (cumTrap 0 (List.zipWith (rate E) lapse R) (t0 :: ts)).map fun x => x + t0) R)

/-- Lines 391-394: the frame is indexed if it has more than one entry. -/
def pickFrame (frame : List (Quaternion ℝ)) (I : List Nat) : Py (List (Quaternion ℝ)) :=
  if frame.length > 1 then pick frame I else .ok frame

/-- `read_finite_radius_waveform` after the reading itself (lines 355-416); `I` is the array `Indices`, `M` is `ChMass`.  The history is left out. -/
noncomputable def process (W : Wave) (a : Aux) (M : ℝ) (I : List Nat) : Py (Wave × List ℝ) := do
  let T ← pick a.times I
  let R ← pick a.areal I
  let L ← pick a.lapse I
  let t ← retime a.energy T L R
  let (unit, n) ← Weights.finiteRadiusScale W.dataType M
  let data ← pick W.data I
  let frame ← pickFrame W.frame I
  pure ({ W with
            t := t.map fun x => x / M
            data := List.zipWith (fun r row => row.map fun c => c * (((r / a.coord) ^ n * unit : ℝ) : ℂ)) R data
            frame := frame
            mScaled := true },
        R.map fun r => r / M)

/-- `read_finite_radius_waveform` (lines 342-416) with the default `MinTimeStep` 0.001 of `monotonic_indices`, whose loop makes at most `fuel` passes; `none` if it still runs then. -/
noncomputable def readWave (fuel : Nat) (W : Wave) (a : Aux) (M : ℝ) : Option (Py (Wave × List ℝ)) :=
  (Monotonic.exMonotonicIndices fuel a.times.length (fun k => a.times.getD k 0) (1 / 1000)).map (process W a M)

/-! ## The format of a file with a group (lines 296-323) -/

inductive Format where
  | rpdmb
  | rpxmb
  deriving DecidableEq

def rpdmbFormats : List String := ["rotating_paired_diff_multishuffle_bzip2", "rpdmb", "RPDMB"]

def rpxmbFormats : List String := ["rotating_paired_xor_multishuffle_bzip2", "rpxmb", "rpxm", "RPXMB", "RPXM"]

/-- Lines 296-323 for the value of `sxs_format` in the `.json` file (`none` if there is no such file): which way the waveform is read. -/
def format (sxs : Option String) : Py Format :=
  let rpdmb := match sxs with
    | some s => decide (s ∈ rpdmbFormats)
    | none => false
  let rpxmb := match sxs with
    | some s => !decide (s ∈ rpdmbFormats) && decide (s ∈ rpdmbFormats)
    | none => false
  if rpxmb then .ok .rpxmb else if rpdmb then .ok .rpdmb else .error .valueError

/-! ## The selection of the waveforms -/

/-- `(?P<r>.*?)\.dir` at the beginning of a string. -/
def untilDir : Str → Option Str
  | [] => none
  | c :: s =>
    if ['.', 'd', 'i', 'r'].isPrefixOf (c :: s) then some []
    else if c = '\n' then none
    else (untilDir s).map fun r => c :: r

/-- `re.compile(r"R(?P<r>.*?)\.dir").search(Name)`: the group `r`. -/
def radius : Str → Option Str
  | [] => none
  | c :: s =>
    if c = 'R' then match untilDir s with
      | some r => some r
      | none => radius s
    else radius s

/-- The argument `CoordRadii`: a list of integers or of strings. -/
inductive Request where
  | empty
  | ints (i : Int) (l : List Int)
  | strs (r : Str) (l : List Str)

/-- Lines 450-475: the names of the waveforms and the radii.  `search pattern name` is whether `re.compile(pattern).search(name)` finds something.  `search` of an integer is a `TypeError`. -/
def select (search : Str → Str → Bool) (names : List Str) : Request → Py (List Str × List Str)
  | .empty => .ok (names, names.filterMap radius)
  | .ints i l => do
    let _ ← (i :: l).mapM (pyGet names)
    .error .typeError
  | .strs r l => .ok (names.flatMap fun name => (r :: l).filterMap fun p => if search p name then some name else none, r :: l)

/-- `SortedRadiiIndices` (line 708); `val` is `float`. -/
noncomputable def sortedIndices (val : Str → ℝ) (radii : List Str) : List Nat :=
  (List.range radii.length).mergeSort fun i j => decide (val (radii.getD i []) ≤ val (radii.getD j []))

/-- `i_outer` (line 709). -/
noncomputable def outer (val : Str → ℝ) (radii : List Str) : Py Nat :=
  match (sortedIndices val radii).getLast? with
  | some i => .ok i
  | none => .error .indexError

/-- The waveform `W_outer` (line 715), by its name. -/
noncomputable def outerName (search : Str → Str → Bool) (val : Str → ℝ) (names : List Str) (req : Request) : Py Str := do
  let (ns, radii) ← select search names req
  let i ← outer val radii
  match ns[i]? with
  | some n => pure n
  | none => .error .indexError

/-- The waveforms that are taken to the common frame (lines 778-786): `W_outer` and those of `SortedRadiiIndices[:-1]`. -/
noncomputable def rotated (val : Str → ℝ) (radii : List Str) : List Nat := sortedIndices val radii

/-! ## The common times -/

/-- The new times of `set_common_time` (lines 513-518) from the times of the waveforms. -/
noncomputable def commonTimes (step earliest latest : ℝ) : List (List ℝ) → Py (List ℝ)
  | [] => .error .indexError
  | t0 :: ts => do
    let T ← Intersection.intersection [earliest, latest] t0 (some step) (some earliest) (some latest)
    ts.foldlM (fun T t => Intersection.intersection T t none none none) T

/-- `set_common_time` (lines 509-523).  `spline x y` is the interpolating function, `interpolate W T` is `W.interpolate(T)`.  A waveform comes with its radii. -/
noncomputable def setCommonTime (spline : List ℝ → List ℝ → ℝ → ℝ) (interpolate : Wave → List ℝ → Wave) (Ws : List (Wave × List ℝ)) (step earliest latest : ℝ) : Py (List (Wave × List ℝ)) := do
  let T ← commonTimes step earliest latest (Ws.map fun w => w.1.t)
  pure (Ws.map fun w => (interpolate w.1 T, T.map (spline w.1.t w.2)))

/-! ## The mass -/

/-- The bin of `numpy.histogram(l, bins=n)` with the range from `lo` to `hi` that has `x`; the last bin has its right end. -/
noncomputable def bin (lo hi : ℝ) (n : Nat) (x : ℝ) : Nat :=
  if ⌊(x - lo) / (hi - lo) * n⌋₊ = n then n - 1 else ⌊(x - lo) / (hi - lo) * n⌋₊

/-- `numpy.argmax` of an array that is not empty: the first of the largest. -/
def argmaxFrom : List Nat → Nat → Nat → Nat → Nat
  | [], _, best, _ => best
  | x :: l, i, best, v => if v < x then argmaxFrom l (i + 1) i x else argmaxFrom l (i + 1) best v

/-- The first and the last edge: `numpy` widens an empty range by one half on both sides. -/
noncomputable def edges (a : ℝ) (l : List ℝ) : ℝ × ℝ :=
  let lo := l.foldl min a
  let hi := l.foldl max a
  if lo = hi then (lo - 1 / 2, hi + 1 / 2) else (lo, hi)

/-- `pick_Ch_mass` (lines 7-23) for the sums of the masses of the two horizons. -/
noncomputable def pickMass : List ℝ → Py ℝ
  | [] => .error .valueError
  | a :: l =>
    let n := (a :: l).length
    let lo := (edges a l).1
    let hi := (edges a l).2
    let hist := (List.range n).map fun k => (a :: l).countP fun x => bin lo hi n x = k
    .ok (lo + argmaxFrom hist 0 0 0 * (hi - lo) / n)

/-! ## Validation -/

/-- The shapes of `ArealRadius.dat`, `AverageLapse.dat` and of the datasets of one waveform. -/
structure Shapes where
  areal : Nat × Nat
  lapse : Nat × Nat
  sets : List (Str × (Nat × Nat))

/-- `m and int(m.group("L")) in LModes` with `LModes = range(lo, 200)`. -/
def isMode (lo : Nat) (name : Str) : Bool :=
  match SpecFile.search name with
  | some LM => decide (lo ≤ SpecFile.digitsValue LM.1 ∧ SpecFile.digitsValue LM.1 < 200)
  | none => false

/-- `NModes` (lines 155-162 and 198-205). -/
def countModes (lo : Nat) (g : Shapes) : Nat := (g.sets.filter fun s => isMode lo s.1).length

/-- `validate_single_waveform` (lines 126-181). -/
def validateOne (g : Shapes) (nModes nTimes lo : Nat) : Bool :=
  decide (g.areal = (nTimes, 2)) && decide (g.lapse = (nTimes, 2)) && decide (countModes lo g = nModes) &&
    g.sets.all fun s => match SpecFile.search s.1 with
      | some _ => decide (s.2 = (nTimes, 3))
      | none => true

/-- The smallest degree in `LModes` (lines 189-195). -/
def lowest (dt : Int) : Nat := if dt = Weights.psi3 ∨ dt = Weights.psi1 then 1 else if dt = Weights.psi2 then 0 else 2

/-- `validate_group_of_waveforms` (lines 184-215); `dt` is the data type from the name of the file. -/
def validate (dt : Int) : List Shapes → Py Bool
  | [] => .error .indexError
  | g :: gs => .ok ((g :: gs).all fun x => validateOne x (countModes (lowest dt) g) g.areal.1 (lowest dt))

end Verif.FiniteRadius
