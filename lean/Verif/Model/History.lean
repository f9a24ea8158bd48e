/-!
# Model of the history log of waveform objects

`scri/waveform_base.py`: `waveform_alterations` (lines 38-62), `_append_history` (lines 706-729),
`copy`, `deepcopy`, `copy_without_data` (lines 797-847), and the pattern in which the decorated
methods of `waveform_base.py`, `waveform_modes.py`, `waveform_grid.py` and `rotations.py` use them.

Only `__history_depth__` and `history` of each object are modelled.  Strings are lists of
characters.  A method body is a program `Prog`; other statements of the real bodies do not touch
the two fields.
-/

namespace Verif.History

abbrev Line := List Char

structure Obj where
  depth : Int
  history : List Line
  deriving DecidableEq

/-- `hist_element.split("\n")` -/
def splitLines : List Char → List Line
  | [] => [[]]
  | c :: s =>
    if c = '\n' then [] :: splitLines s
    else match splitLines s with
      | [] => [[c]]
      | l :: ls => (c :: l) :: ls

/-- `"# " * n` -/
def hashes (n : Int) : List Char := (List.replicate n.toNat ['#', ' ']).flatten

/-- `_append_history(hist, additional_depth)` (lines 706-729). -/
def appendHistory (o : Obj) (hist : List (List Char)) (extra : Int) : Obj :=
  { o with history := o.history ++
      (hist.flatMap splitLines).map fun l => hashes (o.depth + extra) ++ l }

/-- All waveform objects, numbered in the order of creation. -/
structure Heap where
  size : Nat
  obj : Nat → Obj

def Heap.set (h : Heap) (i : Nat) (o : Obj) : Heap :=
  { h with obj := fun j => if j = i then o else h.obj j }

/-- The statements that touch the history of an object. -/
inductive Prog where
  /-- end of the body -/
  | done
  /-- an exception is raised -/
  | raise
  /-- `obj._append_history(hist, extra)` -/
  | append (i : Nat) (hist : List (List Char)) (extra : Int) (k : Prog)
  /-- `obj.__history_depth__ -= 1` -/
  | dec (i : Nat) (k : Prog)
  /-- `W = type(obj)(); W.__dict__.update(deepcopy(obj.__dict__))` (lines 817-820, 837-844) -/
  | clone (i : Nat) (k : Prog)
  /-- a call `obj.method()` of a method decorated with `waveform_alterations` -/
  | call (i : Nat) (body : Prog) (k : Prog)

/-- The wrapper before the call (lines 54-57): a blank line if the depth is 0, then depth + 1. -/
def enter (o : Obj) : Obj :=
  let o := if o.depth = 0 then appendHistory o [[]] 0 else o
  { o with depth := o.depth + 1 }

/-- Executes a program; `true` if it ended normally, `false` if an exception came out.  On an
exception the lines after `result = func(...)` (line 59) do not run: there is no `try`. -/
def run : Prog → Heap → Heap × Bool
  | .done, h => (h, true)
  | .raise, h => (h, false)
  | .append i hist extra k, h => run k (h.set i (appendHistory (h.obj i) hist extra))
  | .dec i k, h => run k (h.set i { h.obj i with depth := (h.obj i).depth - 1 })
  | .clone i k, h => run k ⟨h.size + 1, fun j => if j = h.size then h.obj i else h.obj j⟩
  | .call i body k, h =>
    let stored := (h.obj i).depth
    match run body (h.set i (enter (h.obj i))) with
    | (h', true) => run k (h'.set i { h'.obj i with depth := stored })
    | (h', false) => (h', false)

/-- `p; q` -/
def Prog.seq : Prog → Prog → Prog
  | .done, q => q
  | .raise, _ => .raise
  | .append i hist extra k, q => .append i hist extra (k.seq q)
  | .dec i k, q => .dec i (k.seq q)
  | .clone i k, q => .clone i (k.seq q)
  | .call i b k, q => .call i b (k.seq q)

/-- The usual end of a method that records itself: decrement, then append
(e.g. `scri/rotations.py` lines 339-340). -/
def Prog.record (i : Nat) (entry : List Char) : Prog := .dec i (.append i [entry] 0 .done)

/-- A decorated method on object `i` with the given body. -/
def Prog.method (i : Nat) (body : Prog) : Prog := .call i body .done

/-- `rotate_decomposition_basis` (`scri/rotations.py` lines 284-343), for object `i`. -/
def rotateDecompositionBasis (i : Nat) (entry : List Char) : Prog := .method i (.record i entry)

/-- `to_inertial_frame` (`scri/rotations.py` lines 106-111): rotates, then appends without
decrementing the depth. -/
def toInertialFrame (i : Nat) (entryRot entry : List Char) : Prog :=
  .method i (.seq (rotateDecompositionBasis i entryRot) (.append i [entry] 0 .done))

/-- `truncate` and `convert_to_conjugate_pairs` (`scri/waveform_modes.py` lines 457-476 and
658-685): append without decrementing the depth. -/
def truncate (i : Nat) (entry : List Char) : Prog := .method i (.append i [entry] 0 .done)

/-- `copy`, `copy_without_data` (`scri/waveform_base.py` lines 809-847): `w` is the number of the
new object. -/
def copy (i w : Nat) (entry : List Char) : Prog := .method i (.clone i (.record w entry))

/-- `deepcopy` (lines 797-807). -/
def deepcopy (i w : Nat) (e1 e : List Char) : Prog :=
  .method i (.seq (copy i w e1) (.record w e))

/-- `WaveformModes.__getitem__` (`scri/waveform_modes.py` lines 953-1021), which calls
`WaveformBase.__getitem__`, which calls `copy_without_data`. -/
def getitem (i w : Nat) (e1 e2 e : List Char) : Prog :=
  .method i (.seq (.method i (.seq (copy i w e1) (.record w e2))) (.record w e))

/-- `x_parity_conjugate` and the others (`scri/waveform_modes.py` lines 722-744). -/
def parityConjugate (i w : Nat) (e1 e2 e3 e : List Char) : Prog :=
  .method i (.seq (getitem i w e1 e2 e3) (.record w e))

/-- `x_parity_symmetric_part` and the others (`scri/waveform_modes.py` lines 746-755). -/
def paritySymmetricPart (i w : Nat) (e1 e2 e3 e4 e : List Char) : Prog :=
  .method i (.seq (parityConjugate i w e1 e2 e3 e4) (.record w e))

end Verif.History
