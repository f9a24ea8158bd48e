import Verif.Model.ComCorrection

/-!
# Model of the utilities for many extrapolations (`scri/extrapolation.py` lines 1055-1075 and 1132-1168)

`_safe_format`, which fills in the template of a script, and `FindPossibleExtrapolationsToRun`, which finds the data.  Strings are lists of characters; paths have no line ends.
-/

namespace Verif.Batch
open Verif Verif.ComCorrection

/-! ## `_safe_format` -/

/-- `string.Formatter().get_field` with the arguments `()` and the dictionary `Default(keys)` (lines 1069-1075).  Names that are empty or numbers stand for positional arguments, of which there are none.
Names with attributes or indices, conversions and format specifications are `other`. -/
def getField (keys : List (Str × Str)) (other : Str → Py Str) (name : Str) : Py Str :=
  if name.all SpecFile.isDigit then .error .indexError
  else if name.any fun c => c = '.' || c = '[' || c = '!' || c = ':' then other name
  else .ok ((keys.lookup name).getD ('{' :: name ++ ['}']))

/-- `Formatter().vformat(s, (), Default(keys))` (line 1075), the parser of the standard library: doubled braces stand for one; other braces must match.  The first argument has the characters of the field
that is being read, the last one first.  Braces within a field are not modelled. -/
def go (keys : List (Str × Str)) (other : Str → Py Str) : Option Str → Str → Py Str
  | none, [] => .ok []
  | none, '{' :: '{' :: s => do
    let r ← go keys other none s
    pure ('{' :: r)
  | none, '}' :: '}' :: s => do
    let r ← go keys other none s
    pure ('}' :: r)
  | none, c :: s =>
    if c = '}' then .error .valueError
    else if c = '{' then go keys other (some []) s
    else do
      let r ← go keys other none s
      pure (c :: r)
  | some _, [] => .error .valueError
  | some acc, c :: s =>
    if c = '}' then do
      let x ← getField keys other acc.reverse
      let r ← go keys other none s
      pure (x ++ r)
    else if c = '{' then .error .other
    else go keys other (some (c :: acc)) s

/-- `_safe_format(s, **keys)` (lines 1055-1075) -/
def safeFormat (keys : List (Str × Str)) (other : Str → Py Str) (s : Str) : Py Str := go keys other none s

/-! ## `FindPossibleExtrapolationsToRun` -/

/-- One step of `os.walk`: a directory and the names of its files. -/
structure Step where
  path : Str
  files : List Str

/-- `re.search(r"/Lev[0-9]*$", path)` (lines 1138 and 1142) -/
def isLev : Str → Bool
  | [] => false
  | c :: s => (['/', 'L', 'e', 'v'].isPrefixOf (c :: s) && ((c :: s).drop 4).all SpecFile.isDigit) || isLev s

/-- `metadata.txt` -/
def metadata : Str := ['m', 'e', 't', 'a', 'd', 'a', 't', 'a', '.', 't', 'x', 't']

/-- `_FiniteRadii_CodeUnits.h5` -/
def suffix : Str := ['_', 'F', 'i', 'n', 'i', 't', 'e', 'R', 'a', 'd', 'i', 'i', '_', 'C', 'o', 'd', 'e', 'U', 'n', 'i', 't', 's', '.', 'h', '5']

/-- The names of lines 1144-1167, in this order. -/
def dataFiles : List Str :=
  [['r', 'h'] ++ suffix, ['r', 'P', 's', 'i', '4'] ++ suffix, ['r', '2', 'P', 's', 'i', '3'] ++ suffix, ['r', '3', 'P', 's', 'i', '2'] ++ suffix, ['r', '4', 'P', 's', 'i', '1'] ++ suffix,
    ['r', '5', 'P', 's', 'i', '0'] ++ suffix]

/-- What one step adds (lines 1142-1167). -/
def ofStep (top : Str) (st : Step) : List (Str × Str) :=
  if isLev st.path = true ∧ metadata ∈ st.files then
    (dataFiles.filter fun f => decide (f ∈ st.files)).map fun f => (replaceAll (top ++ ['/']) [] st.path, f)
  else []

/-- `FindPossibleExtrapolationsToRun(TopLevelInputDir)` (lines 1132-1168), `steps` being what `os.walk` gives. -/
def find (top : Str) (steps : List Step) : List (Str × Str) := steps.foldl (fun l st => l ++ ofStep top st) []

end Verif.Batch
