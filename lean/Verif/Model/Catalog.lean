import Verif.Model.Batch
import Verif.Model.ComMotion

/-!
# Model of the two scripts for the catalog

`scri/SpEC/find_com_in_catalog.py` and `scri/SpEC/remove_avg_com_from_catalog.py`.  Strings are lists of characters.  What is printed is left out in the first script.
-/

namespace Verif.Catalog
open Verif Verif.ComCorrection Verif.ComMotion

/-! ## Paths and strings -/

/-- `os.path.join(root, name)` for a name that does not begin with a slash. -/
def join (root name : Str) : Str := if root = [] then name else if root.getLast? = some '/' then root ++ name else root ++ '/' :: name

/-- `s.rstrip("/")` -/
def rstrip (s : Str) : Str := (s.reverse.dropWhile fun c => c = '/').reverse

/-- `os.path.dirname(s)`: all up to the last slash, without the slashes at the end unless there is nothing else. -/
def dirname (s : Str) : Str :=
  let head := (s.reverse.dropWhile fun c => c ≠ '/').reverse
  if rstrip head = [] then head else rstrip head

/-- `s.split(pat)`, with at most `fuel` characters looked at, for a pattern that is not empty. -/
def splitFuel (pat : Str) : Nat → Str → List Str
  | 0, s => [s]
  | _ + 1, [] => [[]]
  | n + 1, c :: s =>
    if pat.isPrefixOf (c :: s) then [] :: splitFuel pat n ((c :: s).drop pat.length)
    else match splitFuel pat n s with
      | [] => [[c]]
      | w :: ws => (c :: w) :: ws

/-- `s.split(pat)` -/
def split (pat s : Str) : List Str := splitFuel pat s.length s

/-- The list of files (find_com_in_catalog.py lines 38-43, remove_avg_com_from_catalog.py lines 41-46): `catalog` and `incoming` are what `walk("Catalog")` and `walk("Incoming")` give.  `fnmatch.filter`
with a pattern without special characters keeps the names that are equal to it. -/
def files (name : Str) (catalog incoming : List Batch.Step) : List Str :=
  (catalog ++ incoming).flatMap fun st => (st.files.filter fun f => f = name).map fun _ => join st.path name

/-! ## `find_com_in_catalog.py` -/

/-- `Horizons.h5` -/
def horizonsName : Str := ['H', 'o', 'r', 'i', 'z', 'o', 'n', 's', '.', 'h', '5']

/-- `estimate_avg_com_motion(filename)` with the defaults (com_motion.py lines 123-299, C38): positions, velocities and the ends of the window. -/
noncomputable def eacm (h : Horizons) : Py (Vec × Vec × ℝ × ℝ) := do
  let (t, com) ← comMotion h none none none
  if t = [] then .error .indexError
  else
    let e := fun i => estimate t (com.map fun c => c i) (1 / 100) (1 / 10) false
    let w := windowTimes t (1 / 100) (1 / 10)
    pure (fun i => (e i).1, fun i => (e i).2.1, w.1, w.2)

/-- What the script uses: opening a file; `float` of a string; `str` of a float. -/
structure Ext where
  openFile : Str → Py Horizons
  parse : Str → Py ℝ
  repr : ℝ → Str

/-- `", ".join(l)` -/
def commas : List Str → Str
  | [] => []
  | [a] => a
  | a :: b :: l => a ++ [',', ' '] ++ commas (b :: l)

/-- `horizons["AhA.dir/ChristodoulouMass.dat"][-1, 0]` (line 24) -/
def lastTime (h : Horizons) : Py ℝ :=
  match h.t.getLast? with
  | none => .error .indexError
  | some x => .ok x

/-- `dir, lev = dirname(filename).split("Lev")` (line 26) -/
def unpack : List Str → Py (Str × Str)
  | [a, b] => .ok (a, b)
  | _ => .error .valueError

/-- The inner part of `run_in` (lines 23-28): the line that is written. -/
noncomputable def line (ext : Ext) (filename : Str) : Py Str := do
  let h ← ext.openFile filename
  let tf ← lastTime h
  let (x, v, t_i, t_f) ← eacm h
  let (dir, lev) ← unpack (split ['L', 'e', 'v'] (dirname filename))
  let l ← ext.parse lev
  pure (dir ++ [',', ' '] ++ ext.repr l ++ [',', ' '] ++ commas ([x 0, x 1, x 2, v 0, v 1, v 2, t_i, t_f].map ext.repr) ++ [',', ' '] ++ ext.repr tf ++ ['\n'])

/-- `run_in` (lines 19-33): the text of the file afterwards; all exceptions are caught. -/
noncomputable def runIn (ext : Ext) (text : Str) (filename : Str) : Str :=
  match line ext filename with
  | .ok l => text ++ l
  | .error _ => text

/-- `dirname,Lev,x0,y0,z0,vx0,vy0,vz0,t0,tf` (line 46) -/
def header : Str :=
  ['d','i','r','n','a','m','e',',','L','e','v',',','x','0',',','y','0',',','z','0',',','v','x','0',',','v','y','0',',','v','z','0',',','t','0',',','t','f']

/-- The script (lines 36-48): the text of `BMSTransformations.csv`. -/
noncomputable def findCom (ext : Ext) (catalog incoming : List Batch.Step) : Str :=
  (files horizonsName catalog incoming).foldl (runIn ext) (header ++ ['\n'])

/-! ## `remove_avg_com_from_catalog.py` -/

/-- `rhOverM_Asymptotic_GeometricUnits.h5` -/
def waveformName : Str :=
  ['r','h','O','v','e','r','M','_','A','s','y','m','p','t','o','t','i','c','_','G','e','o','m','e','t','r','i','c','U','n','i','t','s','.','h','5']

/-- What can be passed as `w_m`, the first parameter of `remove_avg_com_motion`. -/
inductive Given (B : Type) where
  | waveform (w : Wave B)
  | text (s : Str)

/-- The default of `path_to_waveform_h5` (com_motion.py line 304). -/
def defaultPath : Str := waveformName ++ ['/','E','x','t','r','a','p','o','l','a','t','e','d','_','N','2','.','d','i','r']

/-- `NRAR` -/
def nrar : Str := ['N', 'R', 'A', 'R']

/-- `remove_avg_com_motion(w_m, plot=True, file_write_mode=...)` (com_motion.py lines 302-530) for the different kinds of `w_m`.  A string has no attribute `metadata` (used at line 391 if there is a matter
file), and no method `max_norm_time` (line 421, for the plot). -/
noncomputable def racm {B : Type} (ext : ComCorrection.Ext B) (w_m : Option (Given B)) (path : Str) : Py (Wave B × Option (Format × Str × Wave B)) :=
  match w_m with
  | none => ComCorrection.run ext none path nrar false none none true
  | some (.waveform w) => ComCorrection.run ext (some w) path nrar false none none true
  | some (.text _) => do
    let (m, a, b) ← masses { ext with metadata := none } false none none
    let _ ← ext.estimate m a b
    .error .attributeError

/-- What is printed and what is written. -/
inductive Event (B : Type) where
  | working (f : Str)
  | failed (f : Str)
  | finished (f : Str)
  | written (fmt : Format) (name : Str) (w : Wave B)

/-- One call: `racm(f"{filename}/{sub}", plot=True, ...)`.  The only positional argument is bound to the first parameter, `w_m`. -/
noncomputable def call {B : Type} (ext : ComCorrection.Ext B) (filename sub : Str) : Py (Wave B × Option (Format × Str × Wave B)) :=
  racm ext (some (.text (filename ++ '/' :: sub))) defaultPath

/-- What a call leaves behind. -/
def events {B : Type} : Wave B × Option (Format × Str × Wave B) → List (Event B)
  | (_, none) => []
  | (_, some (f, n, w)) => [.written f n w]

/-- A call within its own `try` (lines 17-31). -/
noncomputable def attempt {B : Type} (ext : ComCorrection.Ext B) (filename sub : Str) : List (Event B) :=
  match call ext filename sub with
  | .ok r => events r
  | .error _ => [.failed (filename ++ '/' :: sub)]

/-- `Extrapolated_N2.dir`, `Extrapolated_N3.dir`, `Extrapolated_N4.dir`, `OutermostExtraction.dir` -/
def n2 : Str := ['E','x','t','r','a','p','o','l','a','t','e','d','_','N','2','.','d','i','r']
def n3 : Str := ['E','x','t','r','a','p','o','l','a','t','e','d','_','N','3','.','d','i','r']
def n4 : Str := ['E','x','t','r','a','p','o','l','a','t','e','d','_','N','4','.','d','i','r']
def outermost : Str := ['O','u','t','e','r','m','o','s','t','E','x','t','r','a','c','t','i','o','n','.','d','i','r']

/-- The file whose existence is tested (line 11). -/
def testName (filename : Str) : Str := replaceAll ['.','h','5'] ['_','C','o','M','.','h','5'] filename

/-- `run_in` (lines 9-37) -/
noncomputable def runIn2 {B : Type} (ext : ComCorrection.Ext B) (fileExists : Str → Bool) (filename : Str) : List (Event B) :=
  if fileExists (testName filename) then []
  else
    .working filename :: (match call ext filename n2 with
      | .error _ => [.failed filename]
      | .ok r => events r ++ attempt ext filename n3 ++ attempt ext filename n4 ++ attempt ext filename outermost) ++ [.finished filename]

/-- The script (lines 40-49): what the processes do with each file, in the order of the files. -/
noncomputable def removeCom {B : Type} (ext : ComCorrection.Ext B) (fileExists : Str → Bool) (catalog incoming : List Batch.Step) : List (Event B) :=
  (files waveformName catalog incoming).flatMap (runIn2 ext fileExists)

end Verif.Catalog
