import Verif.Model.Bms
import Verif.Model.Allclose

/-!
# Model of `BMSTransformation` objects as they are stored, and of the files they are stored in

`BMSTransformation.__init__`, `copy`, `is_close_to`, `to_file` and `from_file` (`scri/bms_transformations.py`).  Unlike in `Verif.Model.Bms` the supertranslation is
the array of its modes.  Arithmetic is exact.
-/

namespace Verif.BmsFile

open Verif Verif.TransformKwargs Verif.Bms

/-- A `BMSTransformation`: its attributes `frame_rotation`, `boost_velocity`, `supertranslation`, `order`, `ell_max`. -/
structure Obj where
  q : Quaternion ℝ
  v : List ℝ
  S : List ℂ
  order : Order
  ellMax : Int

/-- `np.pad(supertranslation, (0, (self.ell_max + 1) ** 2 - supertranslation.size))` (line 281): the array, of the given size, with zeros behind it. -/
noncomputable def padTo (ellMax : Int) (size : Int) (row : Modes.Row ℂ) : Py (List ℂ) :=
  if (ellMax + 1) ^ 2 - size < 0 then .error .valueError
  else .ok ((List.range ((ellMax + 1) ^ 2).toNat).map fun i : Nat => if (i : Int) < size then row i else 0)

/-- `BMSTransformation(ell_max=..., order=..., **kw)` (lines 270-286). -/
noncomputable def construct (ellMax : Int) (order : Order) (kw : Kw) : Py Obj := do
  let r ← process ellMax kw
  let S ← padTo ellMax ((r.ellMaxSuper + 1) ^ 2) r.supertranslation
  pure { q := r.frame_rotation, v := r.boost_velocity, S := S, order := complete normalOrder order, ellMax := ellMax }

/-- `BMSTransformation.copy` (lines 300-307). -/
noncomputable def Obj.copy (b : Obj) : Py Obj :=
  construct b.ellMax b.order { frame_rotation := some (components b.q), boost_velocity := some b.v, supertranslation := some b.S }

/-- An array with one axis. -/
def arr (l : List ℂ) : Allclose.Arr where
  shape := [l.length]
  get := fun idx => l[idx.headD 0]?

/-- `np.allclose(a, b)` with the default tolerances (external), for arrays with one axis. -/
noncomputable def allclose (a b : List ℂ) : Py Bool := Allclose.npAllclose 1e-5 1e-8 (arr a) (arr b)

/-- `BMSTransformation.is_close_to` (lines 533-537). -/
noncomputable def Obj.isCloseTo (self other : Obj) : Py Bool := do
  let frame_rotation_eq ← allclose ((components self.q).map (↑)) ((components other.q).map (↑))
  let boost_velocity_eq ← allclose (self.v.map (↑)) (other.v.map (↑))
  let supertranslation_eq ← allclose self.S other.S
  pure (frame_rotation_eq && boost_velocity_eq && supertranslation_eq)

/-! ## HDF5 files -/

/-- What a dataset holds. -/
inductive Value where
  | modes (l : List ℂ)
  | reals (l : List ℝ)
  | names (l : Order)
  | int (n : Int)

/-- The names in a group and what they stand for. -/
abbrev Dir (α : Type) := String → Option α

/-- What a name in the root of a file stands for.  Groups in groups are not modelled: names of groups are not empty and have no slash in them. -/
inductive Node where
  | data (x : Value)
  | group (d : Dir Value)

abbrev File := Dir Node

/-- The file system. -/
abbrev Fs := String → Option File

/-- The modes of `h5py.File`. -/
inductive Mode where
  | w
  | x
  | a
  | rPlus
  | r
  deriving DecidableEq

/-- `d[name] = value`, for the functions above. -/
def set {α : Type} (d : String → Option α) (name : String) (x : α) : String → Option α := fun n => if n = name then some x else d n

/-- The calls of `create_dataset` one after the other (external): a name that is taken is a `ValueError`, and what was written before stays. -/
def create {α : Type} (wrap : Value → α) : Dir α → List (String × Value) → Dir α × Py Unit
  | d, [] => (d, .ok ())
  | d, (name, x) :: rest => match d name with
    | some _ => (d, .error .valueError)
    | none => create wrap (set d name (wrap x)) rest

/-- Lines 601-605: the datasets in the order in which they are written. -/
def Obj.items (b : Obj) : List (String × Value) :=
  [("supertranslation", .modes b.S), ("frame_rotation", .reals (components b.q)), ("boost_velocity", .reals b.v), ("order", .names b.order), ("ell_max", .int b.ellMax)]

/-- Lines 597-605, for an open file. -/
def writeIn (f : File) (group : Option String) (b : Obj) : File × Py Unit :=
  match group with
  | none => create .data f b.items
  | some g => match f g with
    | some _ => (f, .error .valueError)
    | none => let (d, e) := create id (fun _ => none) b.items
      (set f g (.group d), e)

/-- `h5py.File(filename, mode)` (external): the contents of the file after it is opened. -/
def openFile (fs : Fs) (filename : String) : Mode → Py File
  | .w => .ok fun _ => none
  | .x => match fs filename with
    | some _ => .error .other
    | none => .ok fun _ => none
  | .a => .ok ((fs filename).getD fun _ => none)
  | .rPlus => match fs filename with
    | some f => .ok f
    | none => .error .other
  | .r => match fs filename with
    | some f => .ok f
    | none => .error .other

/-- `BMSTransformation.to_file` (lines 594-607): the file system afterwards, and whether it raised.  In a file that is opened for reading nothing can be created (`ValueError`). -/
def toFile (fs : Fs) (filename : String) (mode : Mode) (group : Option String) (b : Obj) : Fs × Py Unit :=
  match openFile fs filename mode with
  | .error e => (fs, .error e)
  | .ok f =>
    if mode = .r then (fs, .error .valueError)
    else
      let (f', e) := writeIn f group b
      (set fs filename f', e)

/-- `hf` or `hf[group]` (lines 611-614), as a function `g.get`.  A dataset has no `get`. -/
def directory (f : File) : Option String → Py (Dir Node)
  | none => .ok f
  | some g => match f g with
    | none => .error .keyError
    | some (.data _) => .error .attributeError
    | some (.group d) => .ok fun n => (d n).map .data

/-- Line 618: the array is read and its items are decoded.  `np.array(None)` cannot be iterated over.  A dataset of another kind, or a group, is an error here; what becomes of it
is not modelled. -/
def readNames (d : Dir Node) (name : String) : Py Order :=
  match d name with
  | none => .error .typeError
  | some (.data (.names l)) => .ok l
  | _ => .error .other

/-- Line 619. -/
def readInt (d : Dir Node) (name : String) : Py Int :=
  match d name with
  | none => .error .typeError
  | some (.data (.int n)) => .ok n
  | _ => .error .other

/-- Line 615.  (What the constructor makes of a missing dataset is not modelled.) -/
def readModes (d : Dir Node) (name : String) : Py (List ℂ) :=
  match d name with
  | some (.data (.modes l)) => .ok l
  | _ => .error .other

/-- Lines 616-617. -/
def readReals (d : Dir Node) (name : String) : Py (List ℝ) :=
  match d name with
  | some (.data (.reals l)) => .ok l
  | _ => .error .other

/-- Lines 610-627 of `from_file`: the new object.  Missing datasets are noticed first by the lines for `order` and `ell_max`. -/
noncomputable def readObj (fs : Fs) (filename : String) (group : Option String) : Py Obj := do
  let f ← openFile fs filename .r
  let d ← directory f group
  let order ← readNames d "order"
  let ellMax ← readInt d "ell_max"
  let S ← readModes d "supertranslation"
  let q ← readReals d "frame_rotation"
  let v ← readReals d "boost_velocity"
  construct ellMax order { frame_rotation := some q, boost_velocity := some v, supertranslation := some S }

/-- `self.from_file(filename, group)` (lines 609-631): `self` afterwards, and whether it raised.  `__dict__.update` replaces every attribute. -/
noncomputable def fromFile (fs : Fs) (self : Obj) (filename : String) (group : Option String) : Obj × Py Unit :=
  match readObj fs filename group with
  | .ok b => (b, .ok ())
  | .error e => (self, .error e)

end Verif.BmsFile
