import Verif.Model.SpecFile

/-!
# Model of `remove_avg_com_motion` (`scri/SpEC/com_motion.py` lines 301-530)

Which files are read, with which masses the motion is estimated, and what is written where.  Plots are left out.
-/

namespace Verif.ComCorrection
open Verif Verif.DataTypes

abbrev Str := List Char

/-! ## Strings -/

/-- `s.replace(pat, rep)`, with at most `fuel` characters looked at, for a pattern that is not empty. -/
def replaceFuel (pat rep : Str) : Nat → Str → Str
  | 0, s => s
  | _ + 1, [] => []
  | n + 1, c :: s => if pat.isPrefixOf (c :: s) then rep ++ replaceFuel pat rep n ((c :: s).drop pat.length) else c :: replaceFuel pat rep n s

/-- `s.replace(pat, rep)` -/
def replaceAll (pat rep s : Str) : Str := replaceFuel pat rep s.length s

/-- `s.replace(pat, rep, 1)` -/
def replaceFirst (pat rep : Str) : Str → Str
  | [] => []
  | c :: s => if pat.isPrefixOf (c :: s) then rep ++ (c :: s).drop pat.length else c :: replaceFirst pat rep s

/-- `re.sub(pat, "", s, flags=re.I)` for a pattern of letters, digits and underscores, with at most `fuel` characters looked at. -/
def removeFuel (pat : Str) : Nat → Str → Str
  | 0, s => s
  | _ + 1, [] => []
  | n + 1, c :: s => if (lower pat).isPrefixOf (lower (c :: s)) then removeFuel pat n ((c :: s).drop pat.length) else c :: removeFuel pat n s

/-- `re.sub(pat, "", s, flags=re.I)` -/
def removeCI (pat s : Str) : Str := removeFuel pat s.length s

/-- `re.search` of a pattern `(a|b|...)` of literal alternatives: what it finds. -/
def searchAny (alts : List Str) : Str → Option Str
  | [] => alts.find? fun a => a.isPrefixOf []
  | c :: s => match alts.find? fun a => a.isPrefixOf (c :: s) with
    | some a => some a
    | none => searchAny alts s

/-! ## Auxiliary waveforms -/

/-- `file_prefix` (line 444) -/
def filePrefix : List Str := [['r','M','P','s','i','4'], ['r','2','P','s','i','3'], ['r','3','P','s','i','2','O','v','e','r','M'], ['r','4','P','s','i','1','O','v','e','r','M','2']]

/-- The alternatives of `regex_template` (line 445) -/
def alternatives : List Str :=
  [['r','2','N','e','w','s'], ['r','h','O','v','e','r','M'], ['r','M','P','s','i','4'], ['r','2','P','s','i','3'], ['r','3','P','s','i','2','O','v','e','r','M'],
    ['r','4','P','s','i','1','O','v','e','r','M','2'], ['r','5','P','s','i','0','O','v','e','r','M','3']]

/-- Lines 447-449: the file of the auxiliary waveform number `i`. -/
def auxPath (path : Str) (i : Nat) : Py Str :=
  match searchAny alternatives path with
  | none => .error .attributeError
  | some q => do
    let p ← Verif.pyGet filePrefix i
    pure (replaceAll q p path)

/-- The loop of lines 446-460: the numbers `k` of the keywords `psi{k}_modes`, with the files that are read for them; data types are those of `scri.DataType` (psi0 is 1, psi4 is 5, h is 7, hdot is 8). -/
def auxFiles (path : Str) (dataType : Int) : Py (List (Nat × Str)) :=
  if dataType = 7 ∨ dataType = 8 ∨ dataType = 5 then .ok []
  else (List.range (5 - dataType).toNat).mapM fun i => do
    let p ← auxPath path i
    pure (4 - i, p)

/-! ## The function -/

/-- The formats (line 374 and following): `file_format.lower()`. -/
inductive Format where
  | nrar
  | rpxmb
  | other
  deriving DecidableEq

def formatOf (s : Str) : Format :=
  if lower s = ['n','r','a','r'] then .nrar
  else if lower s = ['r','p','x','m','b'] ∨ lower s = ['r','p','x','m'] then .rpxmb
  else .other

/-- A waveform: `versionHist` and `radii` are the attributes of that name; `body` stands for the rest. -/
structure Wave (B : Type) where
  body : B
  dataType : Int
  versionHist : List (Str × Str)
  radii : Option (List ℝ)
  shift : Option (List ℝ × List ℝ)

/-- What the function uses: reading a file; whether Matter.h5 is there; the masses in the metadata, if there are any; the estimate of the motion from the horizons and, for `true`, the matter; the
transformation of the modes (whose result is a new object without the attributes); `descriptor_string`. -/
structure Ext (B : Type) where
  load : Format → Str → Py (Wave B)
  matterExists : Bool
  metadata : Option (ℝ × ℝ)
  estimate : Bool → Option ℝ → Option ℝ → Py (List ℝ × List ℝ)
  transform : List ℝ → List ℝ → List (Nat × Wave B) → Wave B → Py B
  descriptor : Wave B → Str

/-- Lines 386-393: whether there is a matter file, and the masses that are used. -/
def masses {B : Type} (ext : Ext B) (matterGiven : Bool) (mA mB : Option ℝ) : Py (Bool × Option ℝ × Option ℝ) :=
  if matterGiven then .ok (true, mA, mB)
  else if ext.matterExists then
    match mA, mB, ext.metadata with
    | some a, some b, _ => .ok (true, some a, some b)
    | _, _, none => .error .attributeError
    | a, b, some (x, y) => .ok (true, some (a.getD x), some (b.getD y))
  else .ok (false, mA, mB)

/-- Line 466: the name passed to `write_to_h5`. -/
def nrarName (descriptor path : Str) : Str := removeCI (descriptor ++ ['_']) (replaceFirst ['.','h','5'] ['_','C','o','M','.','h','5'] path)

/-- Line 487: the name passed to the other `save`. -/
def rpxmbName (path : Str) : Str := replaceFirst ['.','h','5'] ['_','C','o','M','.','h','5'] path

/-- Lines 367-379: the waveform.  The name of the group is taken from the path first. -/
def input {B : Type} (ext : Ext B) (given : Option (Wave B)) (f : Format) (path : Str) : Py (Wave B) :=
  if isIn ['.','h','5'] path = false then .error .indexError
  else match given with
    | some w => .ok w
    | none => if f = .other then .error .valueError else ext.load f path

/-- Lines 450-460: the auxiliary waveforms are read; for an unknown format (with a waveform that was given) they are not. -/
def loadAux {B : Type} (ext : Ext B) (f : Format) (files : List (Nat × Str)) : Py (List (Nat × Wave B)) :=
  if f = .other then .ok []
  else files.mapM fun (p : Nat × Str) => do
    let u ← ext.load f p.2
    pure (p.1, u)

/-- `remove_avg_com_motion`: the waveform that is returned, and the one that is written, with its format and the name that is passed to the writer. -/
def run {B : Type} (ext : Ext B) (given : Option (Wave B)) (path : Str) (fmt : Str) (matterGiven : Bool) (mA mB : Option ℝ) (doWrite : Bool) : Py (Wave B × Option (Format × Str × Wave B)) := do
  let f := formatOf fmt
  let w ← input ext given f path
  let (m, a, b) ← masses ext matterGiven mA mB
  let (x, v) ← ext.estimate m a b
  let files ← auxFiles path w.dataType
  let aux ← loadAux ext f files
  let body ← ext.transform x v aux w
  let w1 : Wave B := { body := body, dataType := w.dataType, versionHist := [], radii := none, shift := none }
  let out := if doWrite ∧ f = .nrar then some (Format.nrar, nrarName (ext.descriptor w1) path, { w1 with shift := some (x, v) }) else none
  let w2 : Wave B := { w1 with shift := some (x, v), versionHist := w.versionHist, radii := w.radii }
  let out := if doWrite ∧ f = .rpxmb then some (Format.rpxmb, rpxmbName path, w2) else out
  pure (w2, out)

end Verif.ComCorrection
