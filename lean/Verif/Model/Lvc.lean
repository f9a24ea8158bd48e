import Verif.Model.SpecFile
import Mathlib.Analysis.SpecialFunctions.Complex.Log

/-!
# Model of `read_from_h5` for LVC files (`scri/LVC/file_io.py` lines 10-54)

Strings are lists of characters without line ends, except for the history.  Complex numbers and times are exact.  What the constructor of `WaveformModes` adds to the history is left out; its tests
depend on `ell_min`, `ell_max` and the shape of `data` only (C16).  Names with a negative degree are not considered by the theorems.
-/

namespace Verif.Lvc

open Verif Verif.Modes

abbrev Str := SpecFile.Str

/-- The datasets `X`, `Y` and `deg` of a group. -/
structure Curve where
  x : List ℝ
  y : List ℝ
  deg : Int

/-- A file: `NRtimes`, the groups with a curve in the order in which they are listed, the names of all else, and `auxiliary-info/history.txt`. -/
structure File where
  times : Option (List ℝ)
  curves : List (Str × Curve)
  others : List Str
  history : Option Str

/-- `InterpolatedUnivariateSpline(X, Y, k=deg)`, which may refuse its arguments. -/
structure Ext where
  spline : Curve → Py (ℝ → ℝ)

/-- What is before and behind the last `"_m"`. -/
def lastM : Str → Option (Str × Str)
  | [] => none
  | c :: s => match lastM s with
    | some (a, b) => some (c :: a, b)
    | none => if ['_', 'm'].isPrefixOf (c :: s) then some ([], (c :: s).drop 2) else none

/-- `phase_re.match(key)` (lines 16 and 22): the texts of the groups `ell` and `m`.  Both `.*` are greedy, so that the first one reaches to the last `"_m"`. -/
def phaseMatch (key : Str) : Option (Str × Str) :=
  match key with
  | 'p' :: 'h' :: 'a' :: 's' :: 'e' :: '_' :: 'l' :: r => lastM r
  | _ => none

/-- Lines 21-23: the degrees and orders of the phases, in the order in which `f` lists its keys. -/
def named : List Str → Py (List (Int × Int))
  | [] => .ok []
  | k :: ks => match phaseMatch k with
    | none => named ks
    | some (a, b) => do
      let ell ← SpecFile.pyInt a
      let m ← SpecFile.pyInt b
      let rest ← named ks
      pure ((ell, m) :: rest)

/-- Lines 24-25: the least and the largest degree.  Without any name, `ell_m[:, 0]` is an index too many for an array with one axis. -/
def degrees : List (Int × Int) → Py (Int × Int)
  | [] => .error .indexError
  | p :: ps => .ok ((ps.map fun q => q.1).foldl min p.1, (ps.map fun q => q.1).foldl max p.1)

/-- `f"amp_l{ell}_m{m}"` -/
def ampName (ell m : Int) : Str := ['a', 'm', 'p', '_', 'l'] ++ SpecFile.str ell ++ ['_', 'm'] ++ SpecFile.str m

/-- `f"phase_l{ell}_m{m}"` -/
def phaseName (ell m : Int) : Str := ['p', 'h', 'a', 's', 'e', '_', 'l'] ++ SpecFile.str ell ++ ['_', 'm'] ++ SpecFile.str m

/-- The spline through the data of a group (lines 29-31 and 32-34). -/
def curve (ext : Ext) (F : File) (name : Str) : Py (ℝ → ℝ) :=
  match F.curves.lookup name with
  | none => .error .keyError
  | some c => ext.spline c

/-- Lines 29-35: the values of one mode at the times of the file. -/
noncomputable def column (ext : Ext) (F : File) (t : List ℝ) (LM : Int × Int) : Py (List ℂ) := do
  let a ← curve ext F (ampName LM.1 LM.2)
  let p ← curve ext F (phaseName LM.1 LM.2)
  pure (t.map fun x => (a x : ℂ) * Complex.exp (Complex.I * (p x : ℂ)))

/-- `data[:, j] = col` (line 35). -/
def put (cols : List (List ℂ)) (j : Int) (col : List ℂ) : Py (List (List ℂ)) :=
  if 0 ≤ j ∧ j < cols.length then .ok (cols.set j.toNat col) else .error .indexError

/-- `s.split("\n")` -/
def lines : Str → List Str
  | [] => [[]]
  | c :: s =>
    if c = '\n' then [] :: lines s
    else match lines s with
      | l :: ls => (c :: l) :: ls
      | [] => [[c]]

/-- `s.replace("\n", "\n### ")` -/
def comment : Str → Str
  | [] => []
  | c :: s => if c = '\n' then '\n' :: '#' :: '#' :: '#' :: ' ' :: comment s else c :: comment s

/-- Lines 36-39. -/
def historyOf (F : File) : List Str :=
  match F.history with
  | some s => lines ('#' :: '#' :: '#' :: ' ' :: comment s)
  | none => [[]]

/-- The result. -/
structure Wave where
  t : List ℝ
  cols : List (List ℂ)
  ellMin : Int
  ellMax : Int
  frameType : Int
  dataType : Int
  history : List Str
  rScaled : Bool
  mScaled : Bool

/-- `f["NRtimes"][:]` (line 20). -/
def timesOf (F : File) : Py (List ℝ) :=
  match F.times with
  | some t => .ok t
  | none => .error .keyError

/-- `read_from_h5(file_name)` (lines 19-54).  `garbage n` is the content of `np.empty` for `n` columns. -/
noncomputable def readFile (ext : Ext) (garbage : Nat → List (List ℂ)) (F : File) : Py Wave := do
  let t ← timesOf F
  let ks ← named ((F.curves.map fun p => p.1) ++ F.others)
  let e ← degrees ks
  let cols ← (LMRange e.1 e.2).foldlM
    (fun cols LM => column ext F t LM >>= put cols (lmIndex LM.1 LM.2 e.1)) (garbage ((e.2 + 1) ^ 2 - e.1 ^ 2).toNat)
  pure { t := t, cols := cols, ellMin := e.1, ellMax := e.2, frameType := 1, dataType := 7, history := historyOf F, rScaled := true, mScaled := true }

end Verif.Lvc
