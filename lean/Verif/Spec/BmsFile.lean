import Verif.Model.BmsFile

/-!
# Specification of the storage of BMS transformations

What a user keeps in mind: each file is a map from places (the root or a named group) to transformations.
-/

namespace Verif.Spec.BmsFile

open Verif Verif.BmsFile

/-- An object as the constructor makes it, for an `ell_max` that is not negative. -/
def Made (b : Obj) : Prop := ∃ ellMax order kw, 0 ≤ ellMax ∧ construct ellMax order kw = .ok b

/-- A file: the transformation at each place, if there is one. -/
abbrev Shelf := Option String → Option Obj

/-- All files. -/
abbrev Store := String → Option Shelf

/-- A call of `to_file`. -/
structure Call where
  filename : String
  mode : Mode
  group : Option String
  b : Obj

/-- The file with one more transformation. -/
def Shelf.put (s : Shelf) (place : Option String) (b : Obj) : Shelf := fun p => if p = place then some b else s p

def Store.put (st : Store) (filename : String) (s : Shelf) : Store := fun n => if n = filename then some s else st n

/-- What a call does: "w" begins an empty file; "x" too, if there is no such file; "a" and "r+" add to the file, if the place is free, and "a" makes the file if there is none; "r" cannot write.
The second item says whether it succeeds. -/
def step (st : Store) (c : Call) : Store × Bool :=
  let empty : Shelf := fun _ => none
  let add (s : Shelf) : Store × Bool := match s c.group with
    | some _ => (st, false)
    | none => (st.put c.filename (s.put c.group c.b), true)
  match c.mode, st c.filename with
  | .w, _ => add empty
  | .x, none => add empty
  | .x, some _ => (st, false)
  | .a, s => add (s.getD empty)
  | .rPlus, some s => add s
  | .rPlus, none => (st, false)
  | .r, _ => (st, false)

/-- A sequence of calls; a call that fails does not end it. -/
def run (st : Store) : List Call → Store × List Bool
  | [] => (st, [])
  | c :: rest =>
    let (st', ok) := step st c
    let (st'', oks) := run st' rest
    (st'', ok :: oks)

/-- Names that cannot be used for groups. -/
def reserved : List String := ["supertranslation", "frame_rotation", "boost_velocity", "order", "ell_max"]

/-- A call as a user makes it. -/
def Fair (c : Call) : Prop := Made c.b ∧ ∀ g, c.group = some g → g ∉ reserved

end Verif.Spec.BmsFile
