/-!
# Model of the creation and copying of waveform objects

`scri/waveform_base.py`: `__num` and `__init__` (lines 175-270), `__getstate__`/`__setstate__` (lines
764-795), `copy`, `deepcopy` (lines 797-823), the copy constructor (lines 241-253).

`type(self).__num` is a class attribute.  Reading it on a subclass that has not yet been
instantiated finds the attribute of `WaveformBase`; `type(self).__num += 1` then stores it on the
subclass itself.  Class 0 is `WaveformBase`, every other number a direct subclass.  Array and list
contents are abstract; what is modelled is which objects share which storage.
-/

namespace Verif.Objects

/-- A waveform object: class, number, and references to the storage of four attributes. -/
structure Obj where
  cls : Nat
  num : Nat
  t : Nat
  frame : Nat
  data : Nat
  history : Nat
  deriving DecidableEq

def Obj.refs (o : Obj) : List Nat := [o.t, o.frame, o.data, o.history]

/-- Contents of one array or list. -/
abbrev Content := List Nat

structure State where
  /-- `WaveformBase.__num` -/
  base : Nat
  /-- `Subclass.__num`, once it exists -/
  own : Nat → Option Nat
  /-- all objects made so far, oldest first -/
  objs : List Obj
  /-- storage; cells from `next` on are free -/
  next : Nat
  cell : Nat → Content

def init : State := ⟨0, fun _ => none, [], 0, fun _ => []⟩

/-- `type(self).__num` -/
def State.counter (s : State) (c : Nat) : Nat :=
  if c = 0 then s.base else (s.own c).getD s.base

/-- `type(self).__num += 1` (line 220) -/
def State.increment (s : State) (c : Nat) : State :=
  if c = 0 then { s with base := s.base + 1 }
  else { s with own := fun d => if d = c then some (s.counter c + 1) else s.own d }

/-- A new cell with the given content. -/
def State.alloc (s : State) (v : Content) : State × Nat :=
  ({ s with next := s.next + 1, cell := fun r => if r = s.next then v else s.cell r }, s.next)

/-- In-place modification of an array or list. -/
def State.write (s : State) (r : Nat) (v : Content) : State :=
  { s with cell := fun q => if q = r then v else s.cell q }

/-- `self.history += [...]` (line 725): in place, because `history` is a list. -/
def State.appendHistory (s : State) (o : Obj) (line : Nat) : State :=
  s.write o.history (s.cell o.history ++ [line])

/-- An optional keyword argument: the caller's object, or a fresh default. -/
def State.arg (s : State) : Option Nat → State × Nat
  | some r => (s, r)
  | none => s.alloc []

/-- `WaveformBase(t=..., frame=..., data=..., history=...)` and its subclasses (lines 217-266): the
arguments are stored as they are, without copying; one abstract line is added to the history. -/
def State.construct (s : State) (c : Nat) (t frame data history : Option Nat) (line : Nat) : State :=
  let num := s.counter c
  let s := s.increment c
  let (s, rt) := s.arg t
  let (s, rf) := s.arg frame
  let (s, rd) := s.arg data
  let (s, rh) := s.arg history
  let o : Obj := ⟨c, num, rt, rf, rd, rh⟩
  { s with objs := s.objs ++ [o] }.appendHistory o line

/-- A constructor call that raises after the number has been taken (line 264). -/
def State.constructFails (s : State) (c : Nat) : State := s.increment c

/-- `copy` (lines 809-823; `deepcopy` calls it) and the copy constructor (lines 241-253): a new
number, and new storage with the same content. -/
def State.copy (s : State) (o : Obj) (line : Nat) : State :=
  let num := s.counter o.cls
  let s := s.increment o.cls
  let (s, rt) := s.alloc (s.cell o.t)
  let (s, rf) := s.alloc (s.cell o.frame)
  let (s, rd) := s.alloc (s.cell o.data)
  let (s, rh) := s.alloc (s.cell o.history)
  let w : Obj := ⟨o.cls, num, rt, rf, rd, rh⟩
  { s with objs := s.objs ++ [w] }.appendHistory w line

/-- Unpickling, `copy.copy` and `copy.deepcopy` of the standard library: `__init__` does not run, so
in `__setstate__` (lines 777-795) `self.__num` is the class attribute, which is not
incremented. -/
def State.unpickle (s : State) (o : Obj) (line : Nat) : State :=
  let num := s.counter o.cls
  let (s, rt) := s.alloc (s.cell o.t)
  let (s, rf) := s.alloc (s.cell o.frame)
  let (s, rd) := s.alloc (s.cell o.data)
  let (s, rh) := s.alloc (s.cell o.history)
  let w : Obj := ⟨o.cls, num, rt, rf, rd, rh⟩
  { s with objs := s.objs ++ [w] }.appendHistory w line

/-- What a program can do. `copy i` refers to the i-th object; a missing object is a no-op. -/
inductive Op where
  | construct (c : Nat) (t frame data history : Option Nat) (line : Nat)
  | constructFails (c : Nat)
  | copy (i : Nat) (line : Nat)
  | unpickle (i : Nat) (line : Nat)
  | newArray (v : Content)
  | write (r : Nat) (v : Content)

def step (s : State) : Op → State
  | .construct c t f d h line => s.construct c t f d h line
  | .constructFails c => s.constructFails c
  | .copy i line => match s.objs[i]? with
    | some o => s.copy o line
    | none => s
  | .unpickle i line => match s.objs[i]? with
    | some o => s.unpickle o line
    | none => s
  | .newArray v => (s.alloc v).1
  | .write r v => s.write r v

def runOps (s : State) (ops : List Op) : State := ops.foldl step s

end Verif.Objects
