import Verif.Model.Exchange

/-!
# Model of `scri/SpEC/file_io/rotating_paired_xor_multishuffle_bzip2.py`

The functions `sxs.rpxmb.save` and `sxs.rpxmb.load` of another package are parameters, on a state of the file system.
-/

namespace Verif.Rpxmb
open Verif Verif.Validity Verif.Exchange

/-- What `sxs.rpxmb.load` returns: a `sxs.WaveformModes` with two further attributes. -/
structure Loaded (J L : Type) where
  w : Sxs
  json : J
  logFrame : L

/-- The keyword arguments of `save` (line 11). -/
structure SaveArgs (L S : Type) where
  fileName : Option (List Char)
  mode : List Char
  tolerance : Rat
  logFrame : Option L
  widths : S

/-- `save(w)` with a file name and nothing else (line 11). -/
def SaveArgs.default {L S : Type} (widths : S) (fileName : List Char) : SaveArgs L S :=
  { fileName := some fileName, mode := ['w'], tolerance := 1 / 10 ^ 10, logFrame := none, widths := widths }

/-- The keyword arguments of `load` (line 28); `other` is `**kwargs`. -/
structure LoadArgs (K : Type) where
  ignoreValidation : Bool := false
  checkMd5 : Bool := true
  inertial : Bool := false
  other : K

/-- The package `sxs`; `D` is the state of the file system. -/
structure Lib (D J L S K R : Type) where
  save : Sxs → SaveArgs L S → D → Py (R × D)
  load : List Char → LoadArgs K → D → Py (Loaded J L)

variable {D J L S K R : Type}

/-- `save` (lines 11-25). -/
def save (lib : Lib D J L S K R) (W : Wave) (a : SaveArgs L S) (d : D) : Py (R × D) := do
  let s ← toSxs W
  lib.save s a d

/-- A waveform with the attributes of lines 58-59. -/
structure Result (J L : Type) where
  wave : Wave
  json : J
  logFrame : L

/-- What `load` returns: a waveform, or a waveform and the logarithm of its frame. -/
inductive Returned (J L : Type) where
  | one (w : Result J L)
  | two (w : Result J L) (logFrame : L)

/-- `load` (lines 28-64).  The other parameters are those of the constructor of `WaveformModes`. -/
def load (conv : Arr → Option Attr) (line closing : List (List Char)) (lib : Lib D J L S K R) (file : List Char) (a : LoadArgs K) (d : D) : Py (Returned J L) := do
  let l ← lib.load file a d
  let W ← fromSxs conv false line closing l.w
  let w : Result J L := { wave := W, json := l.json, logFrame := l.logFrame }
  if a.inertial then pure (.one w) else pure (.two w w.logFrame)

end Verif.Rpxmb
