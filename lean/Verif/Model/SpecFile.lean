import Verif.Model.Modes
import Verif.Model.DataTypes
import Verif.Model.Monotonic
import Mathlib.Algebra.Quaternion
import Mathlib.Data.Complex.Basic
import Mathlib.Data.Real.Basic

/-!
# Model of `write_to_h5` and `read_from_h5` (`scri/SpEC/file_io/__init__.py` lines 81-330 and 333-418)

Strings are lists of characters.  An HDF5 file has a root and named groups; two paths are the same group only if they are the same string.  The lines that the functions add to the history are left
out.  The last test of `read_from_h5`, `ensure_validity`, passes for each waveform that gets there: for a `WaveformModes` it depends on `ell_min`, `ell_max`, `LM` and the shape of `data` only (C16).
-/

namespace Verif.SpecFile

open Verif Verif.Modes

abbrev Str := List Char

/-- The attributes of a `WaveformModes` that are written or read.  `cols` has the columns of `data`, one for each mode; `history` is `"\n".join(w.history)`; the last two are `None` if there is no such
attribute. -/
structure Wave where
  t : List ℝ
  cols : List (List ℂ)
  ellMin : Int
  ellMax : Int
  frame : List (Quaternion ℝ)
  frameType : Int
  dataType : Int
  rScaled : Bool
  mScaled : Bool
  version : List (Str × Str)
  history : Str
  spaceTranslation : Option (List ℝ)
  boostVelocity : Option (List ℝ)

/-- The value of an HDF5 attribute. -/
inductive AttrVal where
  | int (n : Int)
  | reals (l : List ℝ)
  | other

/-- The rows `[t, re, im]` of a dataset. -/
abbrev Rows := List (ℝ × ℝ × ℝ)

/-- A group: its attributes (the newest first), `History.txt`, `VersionHist.ver`, `Frame` (which may be without data), the datasets with three columns, and the names of all else. -/
structure Group where
  attrs : List (String × AttrVal) := []
  history : Option Str := none
  version : Option (List (Str × Str)) := none
  frame : Option (Option (List (Quaternion ℝ))) := none
  sets : List (Str × Rows) := []
  others : List String := []

structure File where
  root : Group := {}
  groups : Str → Option Group := fun _ => none

/-- The file system. -/
abbrev Fs := Str → Option File

/-- External functions.  `descriptor` is `w.descriptor_string` (the subject of C51).  `note w name` is what line 375 puts behind the history.  `listing` is the order in which `list(f)` gives the
datasets.  `find key text` is the list that the regular expressions of lines 287 and 297 find in a history. -/
structure Ext where
  descriptor : Wave → Str
  note : Wave → Str → Str
  listing : List (Str × Rows) → List (Str × Rows)
  find : String → Str → Option (List ℝ)

/-! ## Names of files -/

/-- `s.split(".h5")` -/
def split : Str → List Str
  | '.' :: 'h' :: '5' :: s => [] :: split s
  | [] => [[]]
  | c :: s => match split s with
    | p :: ps => (c :: p) :: ps
    | [] => [[c]]

/-- `s.rsplit(".h5", 1)`: what is before and behind the last `".h5"`; `none` if there is none. -/
def rsplit : Str → Option (Str × Str)
  | [] => none
  | c :: s => match rsplit s with
    | some (a, b) => some (c :: a, b)
    | none => if ['.', 'h', '5'].isPrefixOf (c :: s) then some ([], (c :: s).drop 3) else none

/-- Lines 351-354: the file, and the group within it. -/
def writeTarget (name : Str) : Py (Str × Option Str) :=
  if DataTypes.isIn ['.', 'h', '5'] name = true ∧ ¬ ['.', 'h', '5'].isSuffixOf name then
    match split name with
    | [a, b] => .ok (a ++ ['.', 'h', '5'], some b)
    | _ => .error .valueError
  else .ok (name, none)

/-- `os.path.dirname(s)` with its final slash, or nothing. -/
def dirSlash (s : Str) : Str := s.take (s.length - (DataTypes.basename s).length)

/-- Lines 355-360: the description is put before the name of the file.  (For a path with several slashes before the name, `os.path.join` would keep one of them.) -/
def decorate (descriptor file : Str) : Str := dirSlash file ++ descriptor ++ ['_'] ++ DataTypes.basename file

/-- Lines 123-137 of `read_from_h5`: the file, and the group within it (empty for the root). -/
def readTarget (name : Str) : Str × Str :=
  match rsplit name with
  | some (a, b) => (a ++ ['.', 'h', '5'], b)
  | none => (name, [])

/-! ## Names of datasets -/

/-- The decimal digits of a number. -/
def decimal (n : Nat) : Str :=
  if n < 10 then [Char.ofNat (48 + n)] else decimal (n / 10) ++ [Char.ofNat (48 + n % 10)]

/-- `str(n)` -/
def str (n : Int) : Str := if n < 0 then '-' :: decimal n.natAbs else decimal n.natAbs

/-- `f"Y_l{ell}_m{m}.dat"` (line 396). -/
def setName (ell m : Int) : Str := ['Y', '_', 'l'] ++ str ell ++ ['_', 'm'] ++ str m ++ ['.', 'd', 'a', 't']

def isDigit (c : Char) : Bool := '0' ≤ c ∧ c ≤ '9'

/-- The regular expression of line 118, at the start of the string: the texts of the groups `L` and `M`. -/
def matchAt (s : Str) : Option (Str × Str) :=
  match s with
  | 'Y' :: '_' :: 'l' :: r =>
    let L := r.takeWhile isDigit
    if L = [] then none
    else match r.dropWhile isDigit with
      | '_' :: 'm' :: q =>
        let M := q.takeWhile fun c => c = '-' || c = '+' || isDigit c
        if M = [] then none
        else if ['.', 'd', 'a', 't'].isPrefixOf (q.dropWhile fun c => c = '-' || c = '+' || isDigit c) then some (L, M)
        else none
      | _ => none
  | _ => none

/-- `pattern_Ylm.search(s)` -/
def search : Str → Option (Str × Str)
  | [] => none
  | c :: s => match matchAt (c :: s) with
    | some x => some x
    | none => search s

/-- The number with these digits. -/
def digitsValue (s : Str) : Nat := s.foldl (fun a c => 10 * a + (c.toNat - 48)) 0

/-- `int(s)` -/
def pyInt (s : Str) : Py Int :=
  match s with
  | '-' :: d => if d ≠ [] ∧ d.all isDigit = true then .ok (-(digitsValue d : Int)) else .error .valueError
  | '+' :: d => if d ≠ [] ∧ d.all isDigit = true then .ok (digitsValue d) else .error .valueError
  | d => if d ≠ [] ∧ d.all isDigit = true then .ok (digitsValue d) else .error .valueError

/-! ## Writing -/

/-- `mode` of `h5py.File`. -/
inductive Mode where
  | r
  | rPlus
  | w
  | x
  | a
  deriving DecidableEq

/-- `h5py.File(file_name, mode)` for writing: the file as it is then.  With mode `"r"` the first change would raise; this is reported here. -/
def openFile (mode : Mode) (f : Option File) : Py File :=
  match mode, f with
  | .r, _ => .error .other
  | .rPlus, some F => .ok F
  | .rPlus, none => .error .other
  | .w, _ => .ok {}
  | .x, some _ => .error .other
  | .x, none => .ok {}
  | .a, some F => .ok F
  | .a, none => .ok {}

/-- `e.encode("ascii", "ignore")` -/
def ascii (s : Str) : Str := s.filter fun c => c.toNat < 128

/-- Lines 374-416: what is written into a group, for the text of `History.txt`. -/
def groupOf (w : Wave) (text : Str) (attributes : List (String × AttrVal)) (nrar : Bool) : Py Group := do
  let dt ← DataTypes.toGWFrames w.dataType
  let g : Group :=
    { attrs := attributes.reverse ++
        [("MIsScaledOut", .int (if w.mScaled then 1 else 0)), ("RIsScaledOut", .int (if w.rScaled then 1 else 0)), ("DataType", .int dt),
         ("FrameType", .int w.frameType), ("OutputFormatVersion", .other)]
      history := some text
      version := if w.version.length > 0 then some (w.version.map fun p => (ascii p.1, ascii p.2)) else none }
  if nrar then
    pure { g with sets := ((LMRange w.ellMin w.ellMax).zip w.cols).map fun p => (setName p.1.1 p.1.2, (w.t.zip p.2).map fun x => (x.1, x.2.re, x.2.im)) }
  else
    pure { g with frame := some (if w.frame.length > 0 then some w.frame else none), others := ["Time", "Data"] }

/-- The file after writing a group at a place that is free. -/
def putGroup (F : File) (path : Option Str) (g : Group) : File :=
  match path with
  | none => { F with root := { g with attrs := g.attrs ++ F.root.attrs, sets := F.root.sets ++ g.sets, others := F.root.others ++ g.others } }
  | some p => { F with groups := fun q => if q = p then some g else F.groups q }

/-- The place can be written to: there is no group of the name (`create_group`), or no `History.txt` in the root. -/
def isFree (F : File) : Option Str → Bool
  | none => F.root.history.isNone
  | some p => (F.groups p).isNone

def setFile (fs : Fs) (name : Str) (F : File) : Fs := fun n => if n = name then some F else fs n

/-- `write_to_h5(w, name, mode, attributes, use_NRAR_format)` (lines 333-418): the files afterwards, and whether it raised. -/
def write (ext : Ext) (fs : Fs) (w : Wave) (name : Str) (mode : Mode) (attributes : List (String × AttrVal)) (nrar : Bool) : Fs × Py Unit :=
  match writeTarget name with
  | .error e => (fs, .error e)
  | .ok (file0, path) =>
    let file := decorate (ext.descriptor w) file0
    match openFile mode (fs file) with
    | .error e => (fs, .error e)
    | .ok F =>
      if isFree F path = false then (setFile fs file F, .error .valueError)
      else match groupOf w (w.history ++ ext.note w file) attributes nrar with
        | .error e => (setFile fs file F, .error e)
        | .ok g => (setFile fs file (putGroup F path g), .ok ())

/-! ## Reading -/

/-- The keyword arguments. -/
structure Kw where
  frameType : Option Int := none
  dataType : Option Int := none
  rScaled : Option Bool := none
  mScaled : Option Bool := none

/-- `f.attrs[key]` -/
def attr (g : Group) (key : String) : Option AttrVal := g.attrs.lookup key

/-- `int(f.attrs[key])`, or the given value if the key is missing. -/
def intAttr (g : Group) (key : String) (default : Int) : Py Int :=
  match attr g key with
  | some (.int n) => .ok n
  | some _ => .error .typeError
  | none => .ok default

/-- `bool(f.attrs[key])`, or the given value if the key is missing. -/
def boolAttr (g : Group) (key : String) (default : Bool) : Py Bool :=
  match attr g key with
  | some (.int n) => .ok (n ≠ 0)
  | some _ => .error .valueError
  | none => .ok default

/-- Lines 186-204: without an attribute, from the keyword arguments or the name of the file; `UnknownDataType` if nothing is found. -/
def defaultDataType (file : Str) (kw : Kw) : Int := (kw.dataType <|> DataTypes.dataTypeFromH5Name file).getD 0

/-- Lines 183-204: a `KeyError` of the translation is caught, too. -/
def readDataType (g : Group) (file : Str) (kw : Kw) : Py Int :=
  match attr g "DataType" with
  | some (.int n) => match DataTypes.fromGWFrames n with
    | .ok d => .ok d
    | .error .keyError => .ok (defaultDataType file kw)
    | .error e => .error e
  | some _ => .error .typeError
  | none => .ok (defaultDataType file kw)

/-- `[int(L), int(M)]` for a name that matches. -/
def key (LM : Str × Str) : Py (Int × Int) := do
  let l ← pyInt LM.1
  let m ← pyInt LM.2
  pure (l, m)

/-- Lines 232, 241-257: the datasets whose names match, with their keys. -/
def keyed : List (Str × Rows) → Py (List ((Int × Int) × Rows))
  | [] => .ok []
  | (name, rows) :: l => match search name with
    | none => keyed l
    | some LM => do
      let k ← key LM
      let r ← keyed l
      pure ((k, rows) :: r)

/-- The order of lists of two numbers. -/
def keyLe (a b : Int × Int) : Bool := a.1 < b.1 || (a.1 = b.1 && a.2 ≤ b.2)

/-- `w.data[:, m]` (lines 269-277). -/
def readColumn (mask : List Bool) (n : Nat) (rows : Rows) : Py (List ℂ) :=
  if rows.length ≠ n then .error .valueError
  else .ok ((List.range rows.length).filterMap fun i => if mask.getD i false then (rows[i]?).map fun r => (⟨r.2.1, r.2.2⟩ : ℂ) else none)

/-- Lines 282-302: a parameter from the attributes, or else from the history. -/
def readVector (ext : Ext) (g : Group) (name : String) : Option (List ℝ) :=
  match attr g name with
  | some (.reals l) => some l
  | some _ => none
  | none => match g.history with
    | some text => ext.find name text
    | none => none

/-- `w.frame` (lines 165-168). -/
def readFrame (g : Group) : Py (List (Quaternion ℝ)) :=
  match g.frame with
  | none => .ok []
  | some none => .error .other
  | some (some q) => .ok q

/-- Lines 150-316: what is read from the group `g` of a file with the root `root`. -/
noncomputable def readGroup (ext : Ext) (file : Str) (root g : Group) (kw : Kw) : Py Wave := do
  let frame ← readFrame g
  let frameType ← intAttr g "FrameType" (kw.frameType.getD 1)
  let dataType ← readDataType g file kw
  let rScaled ← boolAttr g "RIsScaledOut" (kw.rScaled.getD true)
  let mScaled ← boolAttr g "MIsScaledOut" (kw.mScaled.getD true)
  let ks ← keyed (ext.listing g.sets)
  match ks.mergeSort fun a b => keyLe a.1 b.1 with
  | [] => .error .valueError
  | first :: rest => do
    let sets := first :: rest
    let LM := (sets.map fun s => s.1).mergeSort keyLe
    let ellMin := (LM.map fun k => k.1).foldl min first.1.1
    let ellMax := (LM.map fun k => k.1).foldl max first.1.1
    if LM ≠ LMRange ellMin ellMax then .error .valueError
    else do
      let T := first.2.map fun r => r.1
      let mask ← Monotonic.indexIsMonotonic T
      let t := (List.range T.length).filterMap fun i => if mask.getD i false then T[i]? else none
      let cols ← sets.mapM fun s => readColumn mask t.length s.2
      pure { t := t, cols := cols, ellMin := ellMin, ellMax := ellMax, frame := frame, frameType := frameType, dataType := dataType, rScaled := rScaled, mScaled := mScaled,
             version := root.version.getD [], history := g.history.getD [], spaceTranslation := readVector ext g "space_translation",
             boostVelocity := readVector ext g "boost_velocity" }

/-- `read_from_h5(name, **kw)` (lines 81-330). -/
noncomputable def readFile (ext : Ext) (fs : Fs) (name : Str) (kw : Kw) : Py Wave :=
  match fs (readTarget name).1 with
  | none => .error .other
  | some F =>
    if (readTarget name).2 = [] then readGroup ext (readTarget name).1 F.root F.root kw
    else match F.groups (readTarget name).2 with
      | none => .error .keyError
      | some g => readGroup ext (readTarget name).1 F.root g kw

end Verif.SpecFile
