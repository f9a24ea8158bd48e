import Verif.Model.Weights

/-!
# Data types from SpEC codes and from file names

`scri/SpEC/file_io/__init__.py` lines 36-47 (translation), 190-199 (`read_from_h5`);
`scri/extrapolation.py` lines 217-245 (`datatype_from_filename`).

Strings are lists of characters; `lower()` is modelled on ASCII.
-/

namespace Verif.DataTypes
open Verif.Weights

/-- A Python dict with integer keys. -/
def dictGet (d : List (Int × Int)) (k : Int) : Py Int :=
  match d.lookup k with
  | some v => .ok v
  | none => .error .keyError

/-- `translate_data_types_GWFrames_to_waveforms(d)` (lines 36-40); `DataType` is `range(11)`. -/
def fromGWFrames (d : Int) : Py Int :=
  if d < 8 then
    dictGet [(0, UnknownDataType), (1, h), (2, hdot), (3, psi4), (4, psi3), (5, psi2), (6, psi1), (7, psi0)] d
  else pyGet (pyRange 0 11) (d - 8)

/-- `translate_data_types_waveforms_to_GWFrames(d)` (lines 43-47) -/
def toGWFrames (d : Int) : Py Int :=
  if d ∈ [UnknownDataType, h, hdot, psi4, psi3, psi2, psi1, psi0] then
    dictGet [(UnknownDataType, 0), (h, 1), (hdot, 2), (psi4, 3), (psi3, 4), (psi2, 5), (psi1, 6), (psi0, 7)] d
  else .ok (d + 8)

/-- `pat in s` -/
def isIn (pat : List Char) : List Char → Bool
  | [] => pat.isEmpty
  | c :: s => pat.isPrefixOf (c :: s) || isIn pat s

/-- `s.lower()` -/
def lower (s : List Char) : List Char := s.map Char.toLower

/-- `os.path.basename(s)` -/
def basename (s : List Char) : List Char := (s.reverse.takeWhile (· ≠ '/')).reverse

/-- `s.partition("_")[0]` -/
def beforeUnderscore (s : List Char) : List Char := s.takeWhile (· ≠ '_')

/-- `datatype_from_filename(filename)` (`extrapolation.py` lines 217-245). -/
def datatypeFromFilename (filename : List Char) : Py Int :=
  let s := lower (beforeUnderscore (basename filename))
  if isIn "hdot".toList s then .ok hdot
  else if isIn "h".toList s then .ok h
  else if isIn "psi4".toList s then .ok psi4
  else if isIn "psi3".toList s then .ok psi3
  else if isIn "psi2".toList s then .ok psi2
  else if isIn "psi1".toList s then .ok psi1
  else if isIn "psi0".toList s then .ok psi0
  else .error .valueError

/-- The loop over `zip(reversed(DataType), reversed(DataNames))` in `read_from_h5` (lines 190-199):
the first type whose lower-case name occurs in the lower-case file name; `none` if `found` stays
False. -/
def scanNames (fileName : List Char) : List (Int × String) → Option Int
  | [] => none
  | (ty, name) :: l => if isIn (lower name.toList) (lower fileName) then some ty else scanNames fileName l

def dataTypeFromH5Name (fileName : List Char) : Option Int :=
  scanNames fileName ((pyRange 0 11).reverse.zip DataNames.reverse)

end Verif.DataTypes
