import Verif.Py.Basic

/-!
# Model of the batch extrapolation of `scri/extrapolation.py` (lines 1078-1129 and 1171-1236)

A file system is the set of its files with their times of modification.  `RunExtrapolation` is a sequence of atomic operations
on it; any of them may raise, and the process may be killed between any two of them.
-/

namespace Verif.Markers

abbrev Path := List Char

/-- The files, with their times of modification, and the clock. -/
structure FS where
  mtime : Path → Option Nat
  now : Nat

def FS.exists (fs : FS) (p : Path) : Bool := (fs.mtime p).isSome

/-- Create a file, or open it for writing, or set its time. -/
def FS.touch (fs : FS) (p : Path) : FS := ⟨fun q => if q = p then some fs.now else fs.mtime q, fs.now + 1⟩

def FS.remove (fs : FS) (p : Path) : FS := ⟨fun q => if q = p then none else fs.mtime q, fs.now + 1⟩

/-- The three marker files. -/
inductive Kind
  | started | error | finished
  deriving DecidableEq

/-- `.started_`, `.error_` and `.finished_`. -/
def Kind.name : Kind → Path
  | .started => ['.', 's', 't', 'a', 'r', 't', 'e', 'd', '_']
  | .error => ['.', 'e', 'r', 'r', 'o', 'r', '_']
  | .finished => ['.', 'f', 'i', 'n', 'i', 's', 'h', 'e', 'd', '_']

/-- `"{}/{}/.started_{}".format(TopLevelOutputDir, Subdirectory, DataFile)` and its like (lines 1084, 1096, 1112-1114, 1126, 1183-1190). -/
def marker (k : Kind) (top sub data : Path) : Path := top ++ ['/'] ++ sub ++ ['/'] ++ k.name ++ data

/-- A subdirectory and a data file. -/
abbrev Run := Path × Path

/-- `UnstartedExtrapolations` (lines 1078-1087). -/
def unstarted (fs : FS) (top : Path) (runs : List Run) : List Run :=
  runs.foldl (fun acc r => if ¬ fs.exists (marker .started top r.1 r.2) then acc ++ [r] else acc) []

/-- `StartedButUnfinishedExtrapolations` (lines 1106-1117). -/
def unfinished (fs : FS) (top : Path) (runs : List Run) : List Run :=
  runs.foldl (fun acc r =>
    if fs.exists (marker .started top r.1 r.2) ∧ ¬ fs.exists (marker .error top r.1 r.2) ∧ ¬ fs.exists (marker .finished top r.1 r.2)
    then acc ++ [r] else acc) []

/-- `ErroredExtrapolations` (lines 1120-1129). -/
def errored (fs : FS) (top : Path) (runs : List Run) : List Run :=
  runs.foldl (fun acc r => if fs.exists (marker .error top r.1 r.2) then acc ++ [r] else acc) []

/-- `TimeData > TimeFinished or Timemetadata > TimeFinished` (lines 1098-1101); the two files exist. -/
def isNewer (fs : FS) (top topIn : Path) (r : Run) : Bool :=
  match fs.mtime (marker .finished top r.1 r.2), fs.mtime (topIn ++ ['/'] ++ r.1 ++ ['/', 'm', 'e', 't', 'a', 'd', 'a', 't', 'a', '.', 't', 'x', 't']), fs.mtime (topIn ++ ['/'] ++ r.1 ++ ['/'] ++ r.2) with
  | some tf, some tm, some td => decide (td > tf) || decide (tm > tf)
  | _, _, _ => false

/-- `NewerDataThanExtrapolation` (lines 1090-1103). -/
def newer (fs : FS) (top topIn : Path) (runs : List Run) : List Run :=
  runs.foldl (fun acc r => if isNewer fs top topIn r then acc ++ [r] else acc) []

/-- Where a call of `RunExtrapolation` is. -/
inductive PC
  /-- Before the first marker is written. -/
  | start
  /-- `.started` has been written (line 1183-1185). -/
  | touched
  /-- An `.error` file has been removed (lines 1186-1187). -/
  | noError
  /-- A `.finished` file has been removed (lines 1188-1189). -/
  | clean
  /-- The script has been written (lines 1192-1193); the `try` begins. -/
  | inTry
  /-- The command has been run, with this return value (lines 1203-1206). -/
  | returned (ret : Int)
  /-- `.error` has been written after a return value other than zero (lines 1218-1219). -/
  | errorWritten (ret : Int)
  /-- `.finished` has been written (lines 1222-1223). -/
  | finishedWritten
  /-- In `except:` (line 1225). -/
  | handler
  /-- `.error` has been written in the handler (lines 1226-1227). -/
  | handled
  /-- The call is over, with a return value, or with an exception. -/
  | over (ret : Option Int)

/-- The script and the command that runs it (lines 1192, 1203-1206), `stem` being `DataFile[:-3]`.  In the command `.format` applies
to the second string only: `Extrapolate_<stem>.py` is written, and `set -o pipefail; python Extrapolate_{0}.py 2>&1 | tee Extrapolate_<stem>.log` is run. -/
def script (stem : Path) : Path := ['E', 'x', 't', 'r', 'a', 'p', 'o', 'l', 'a', 't', 'e', '_'] ++ stem ++ ['.', 'p', 'y']
def command (stem : Path) : Path := ['s', 'e', 't', ' ', '-', 'o', ' ', 'p', 'i', 'p', 'e', 'f', 'a', 'i', 'l', ';', ' ', 'p', 'y', 't', 'h', 'o', 'n', ' ', 'E', 'x', 't', 'r', 'a', 'p', 'o', 'l', 'a', 't', 'e', '_', '{', '0', '}', '.', 'p', 'y', ' ', '2', '>', '&', '1', ' ', '|', ' '] ++ (['t', 'e', 'e', ' ', 'E', 'x', 't', 'r', 'a', 'p', 'o', 'l', 'a', 't', 'e', '_'] ++ stem ++ ['.', 'l', 'o', 'g'])

/-- Another program, or the command that is run, changes files, but none of the markers. -/
def Keeps (top : Path) (r : Run) (fs fs' : FS) : Prop := ∀ k, fs'.mtime (marker k top r.1 r.2) = fs.mtime (marker k top r.1 r.2)

/-- One atomic operation of `RunExtrapolation(TopLevelInputDir, TopLevelOutputDir, Subdirectory, DataFile, Template)`
(lines 1171-1236). -/
inductive Step (top : Path) (r : Run) : FS × PC → FS × PC → Prop
  | touch (fs : FS) : Step top r (fs, .start) (fs.touch (marker .started top r.1 r.2), .touched)
  | removeError (fs : FS) : Step top r (fs, .touched)
      (if fs.exists (marker .error top r.1 r.2) then fs.remove (marker .error top r.1 r.2) else fs, .noError)
  | removeFinished (fs : FS) : Step top r (fs, .noError)
      (if fs.exists (marker .finished top r.1 r.2) then fs.remove (marker .finished top r.1 r.2) else fs, .clean)
  | script (fs fs' : FS) (h : Keeps top r fs fs') : Step top r (fs, .clean) (fs', .inTry)
  | call (fs fs' : FS) (ret : Int) (h : Keeps top r fs fs') : Step top r (fs, .inTry) (fs', .returned ret)
  | writeError (fs : FS) (ret : Int) (h : ret ≠ 0) : Step top r (fs, .returned ret) (fs.touch (marker .error top r.1 r.2), .errorWritten ret)
  | returnError (fs : FS) (ret : Int) : Step top r (fs, .errorWritten ret) (fs, .over (some ret))
  | writeFinished (fs : FS) : Step top r (fs, .returned 0) (fs.touch (marker .finished top r.1 r.2), .finishedWritten)
  | returnFinished (fs : FS) : Step top r (fs, .finishedWritten) (fs, .over (some 0))
  | handle (fs : FS) : Step top r (fs, .handler) (fs.touch (marker .error top r.1 r.2), .handled)
  | returnHandled (fs : FS) : Step top r (fs, .handled) (fs, .over (some 0))
  /-- An exception before the `try` ends the call. -/
  | raiseEarly (fs : FS) (pc : PC) (h : pc = .start ∨ pc = .touched ∨ pc = .noError ∨ pc = .clean) : Step top r (fs, pc) (fs, .over none)
  /-- An exception in the `try` is handled. -/
  | raiseLate (fs fs' : FS) (pc : PC) (hk : Keeps top r fs fs') (h : pc = .inTry ∨ (∃ ret, pc = .returned ret) ∨ (∃ ret, pc = .errorWritten ret) ∨ pc = .finishedWritten) :
      Step top r (fs, pc) (fs', .handler)
  /-- An exception in the handler ends the call. -/
  | raiseHandler (fs : FS) (pc : PC) (h : pc = .handler ∨ pc = .handled) : Step top r (fs, pc) (fs, .over none)
  /-- The process is killed. -/
  | kill (fs : FS) (pc : PC) : Step top r (fs, pc) (fs, .over none)
  /-- The next call. -/
  | again (fs : FS) (ret : Option Int) : Step top r (fs, .over ret) (fs, .start)
  /-- Another program. -/
  | other (fs fs' : FS) (pc : PC) (h : Keeps top r fs fs') : Step top r (fs, pc) (fs', pc)

end Verif.Markers
