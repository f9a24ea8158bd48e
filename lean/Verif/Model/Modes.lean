import Verif.Py.Basic

/-!
# Model of the mode bookkeeping of `scri/waveform_modes.py`

A waveform's `data` has one row per time.  All functions here act on every row in the same way
(`data[..., i]`, `data[:, idx]`), so the model is of one row.  A row is a function from column
numbers to values; that every column number the code computes lies in `[0, n_modes)` is proved
in `Verif.Props.Modes`.
-/

namespace Verif.Modes

/-- `sf.LM_range(ell_min, ell_max)`, the array `[[ell,m] for ell in range(ell_min,ell_max+1) for m
in range(-ell,ell+1)]` of the docstring at `scri/waveform_modes.py` lines 404-416. -/
def LMRange (ellMin ellMax : Int) : List (Int × Int) :=
  (pyRange ellMin (ellMax + 1)).flatMap fun ell =>
    (pyRange (-ell) (ell + 1)).map fun m => (ell, m)

/-- `sf.LM_index(ell, m, ell_min)`, called by `index` (`scri/waveform_modes.py` lines 423-437).
The formula is the external package's; it is also written out in `indices` (line 455). -/
def lmIndex (ell m ellMin : Int) : Int := ell * (ell + 1) - ellMin ^ 2 + m

/-- `indices(ell_m)` (`scri/waveform_modes.py` lines 439-455).  `isInt` is `ell_m.dtype == int`;
`ell_m` is given by its rows, all of the same length `cols = ell_m.shape[1]`. -/
def indices (isInt : Bool) (cols : Nat) (ellM : List (List Int)) (ellMin : Int) : Py (List Int) :=
  if isInt ∧ cols = 2 then
    ellM.mapM fun row => do
      let ell ← pyGet row 0
      let m ← pyGet row 1
      pure (ell * (ell + 1) - ellMin ^ 2 + m)
  else .error .valueError

/-- One row of `data`. -/
abbrev Row (K : Type) := Int → K

/-- `row[i] = v` -/
def Row.set {K : Type} (row : Row K) (i : Int) (v : K) : Row K :=
  fun j => if j = i then v else row j

/-- `row[idx] = vals` for an index list (numpy fancy-index assignment: the values are written
one after the other). -/
def Row.assign {K : Type} (row : Row K) (idx : List Int) (vals : List K) : Row K :=
  (idx.zip vals).foldl (fun r p => r.set p.1 p.2) row

end Verif.Modes
