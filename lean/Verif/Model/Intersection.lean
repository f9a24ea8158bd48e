import Verif.Py.Basic
import Mathlib.Order.Defs.LinearOrder

/-!
# Model of `scri/extrapolation.py` : `intersection` (lines 46-123)

Times are elements of a linearly ordered additive group (exact arithmetic, no NaN).  The
output buffer `t = np.empty(t1.size + t2.size)` is modelled by the list of the values written
so far together with the number of free slots left; a write outside the buffer is an
`IndexError`, as in NumPy.
-/

namespace Verif.Intersection
variable {α : Type} [LinearOrder α] [Add α] [Sub α]

/-- `while t[I] > ts[I1] and I1 < size1: I1 += 1` (`scri/extrapolation.py` lines 105-106 and
113-114).  `rest` is `ts[I1:]`; the read `ts[I1]` at the end of the array, which comes before
the bounds test, is an `IndexError`. -/
def advance (t : α) : List α → Nat → Py Nat
  | [], _ => .error .indexError
  | x :: rest, I => if t > x then advance t rest (I + 1) else .ok I

/-- The adjustment of `I1` (lines 100-106) or `I2` (lines 108-114); `first` and `last` are
`min1`/`max1` or `min2`/`max2`. -/
def adjust (t first last : α) (ts : List α) (I : Nat) : Py Nat :=
  if t < first ∨ t > last then .ok 0
  else advance t (ts.drop (max I 1)) (max I 1)

/-- `ts[I] - ts[I - 1]` with Python's negative index when `I = 0` (line 115). -/
def localStep (ts : List α) (I : Nat) : Py α := do
  let a ← pyGet ts (I : Int)
  let b ← pyGet ts ((I : Int) - 1)
  pure (a - b)

/-- The main loop (lines 98-118).  `acc` holds `t[0], ..., t[I-1]`, `cur` is `t[I]`, and `cap`
is the number of slots of the buffer after index `I`. -/
def loop (t1 t2 : List α) (min1 max1 min2 max2 maxt minStep : α) :
    Nat → List α → α → Nat → Nat → Py (List α)
  | cap, acc, cur, I1, I2 =>
    if cur < maxt then do
      let I1 ← adjust cur min1 max1 t1 I1
      let I2 ← adjust cur min2 max2 t2 I2
      let d1 ← localStep t1 I1
      let d2 ← localStep t2 I2
      match cap with
      | 0 => .error .indexError
      | cap + 1 =>
        let next := cur + max (min d1 d2) minStep
        if next > maxt then pure (acc ++ [cur])
        else loop t1 t2 min1 max1 min2 max2 maxt minStep cap (acc ++ [cur]) next I1 I2
    else pure acc

/-- `np.diff` -/
def diff : List α → List α
  | a :: b :: l => (b - a) :: diff (b :: l)
  | _ => []

/-- `np.min`, which raises `ValueError` on an empty array. -/
def npMin : List α → Py α
  | [] => .error .valueError
  | a :: l => .ok (l.foldl min a)

/-- `min_step` after line 90-91. -/
def resolveStep (t1 t2 : List α) : Option α → Py α
  | some s => .ok s
  | none => do
    let a ← npMin (diff t1)
    let b ← npMin (diff t2)
    pure (min a b)

/-- `mint` (lines 78-81). -/
def startTime (min1 min2 : α) : Option α → α
  | none => max min1 min2
  | some m => max (max min1 min2) m

/-- `maxt` (lines 84-87). -/
def endTime (max1 max2 : α) : Option α → α
  | none => min max1 max2
  | some m => min (min max1 max2) m

/-- `intersection(t1, t2, min_step, min_time, max_time)`
(`scri/extrapolation.py` lines 46-123). -/
def intersection (t1 t2 : List α) (minStep minTime maxTime : Option α) : Py (List α) :=
  match t1, t2 with
  | [], _ => .error .valueError
  | _ :: _, [] => .error .valueError
  | a :: l1, b :: l2 => do
    let mint := startTime a b minTime
    let max1 := (a :: l1).getLast (by simp)
    let max2 := (b :: l2).getLast (by simp)
    let maxt := endTime max1 max2 maxTime
    if mint > max1 ∨ mint > max2 then .error .valueError
    else if maxt < a ∨ maxt < b then .error .valueError
    else do
      let step ← resolveStep (a :: l1) (b :: l2) minStep
      loop (a :: l1) (b :: l2) a max1 b max2 maxt step
        ((a :: l1).length + (b :: l2).length - 1) [] mint 0 0

end Verif.Intersection
