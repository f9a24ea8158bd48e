import Verif.Model.Markers

/-!
# Specification: what has happened to a run

The last call of `RunExtrapolation` for a run, in words.
-/

namespace Verif.Spec.Markers

open Verif.Markers

/-- What the last call did. -/
inductive Outcome
  /-- There has been no call. -/
  | never
  /-- The call has begun, but what earlier calls left has not been removed. -/
  | begun
  /-- It is running, or was cut off. -/
  | running
  /-- It has reported an error. -/
  | failed
  /-- It has reported success. -/
  | succeeded
  deriving DecidableEq

/-- What the operation that ends at `pc` makes of the outcome. -/
def next (o : Outcome) : PC → Outcome
  | .touched => .begun
  | .clean => .running
  | .errorWritten _ => .failed
  | .handled => .failed
  | .finishedWritten => .succeeded
  | _ => o

/-- The states that some history of calls, exceptions, crashes and other programs can lead to, with the outcome. -/
inductive Reaches (top : Path) (r : Run) : FS × PC → Outcome → Prop
  | init (fs : FS) (h : ∀ k, fs.mtime (marker k top r.1 r.2) = none) : Reaches top r (fs, .over none) .never
  | step (s s' : FS × PC) (o : Outcome) (h : Reaches top r s o) (hs : Step top r s s') : Reaches top r s' (next o s'.2)

/-- A pipeline whose first command is `python` with this script. -/
def RunsScript (command script : Path) : Prop :=
  ∃ after : Path, command = ['s', 'e', 't', ' ', '-', 'o', ' ', 'p', 'i', 'p', 'e', 'f', 'a', 'i', 'l', ';', ' ', 'p', 'y', 't', 'h', 'o', 'n', ' '] ++ script ++ ' ' :: after ∧ ' ' ∉ script

end Verif.Spec.Markers
