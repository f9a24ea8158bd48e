import Verif.Py.Basic
import Mathlib.Analysis.SpecialFunctions.Pow.Real

/-!
# Model of the sign choice in `LLDominantEigenvector` (`scri/mode_calculations.py` lines 316-400)

The eigenvectors are an input.  Numbers are exact.
-/

namespace Verif.Dominant

/-- A row of `dpa`. -/
@[ext] structure V where
  x : ℝ
  y : ℝ
  z : ℝ

def V.neg (v : V) : V := ⟨v.x * -1, v.y * -1, v.z * -1⟩
noncomputable def V.div (v : V) (c : ℝ) : V := ⟨v.x / c, v.y / c, v.z / c⟩

/-- `dpa` and `LastNorm`. -/
structure St where
  a : Int → V
  last : ℝ

/-- The row meant by index `i` of an array with `n` rows: negative indices count from the end. -/
def wrap (n i : Int) : Int := if i < 0 then i + n else i

/-- Writing row `i`. -/
def put (n : Int) (a : Int → V) (i : Int) (v : V) : Int → V := fun k => if k = wrap n i then v else a k

/-- The body of both loops (lines 329-340 with `d = -1`, 348-359 with `d = 1`). -/
noncomputable def step (n d : Int) (s : St) (i : Int) : St :=
  open Classical in
  let v := s.a (wrap n i)
  let u := s.a (wrap n (i - d))
  let norm := v.x ^ 2 + v.y ^ 2 + v.z ^ 2
  let dNorm := (v.x - u.x) ^ 2 + (v.y - u.y) ^ 2 + (v.z - u.z) ^ 2
  let a := if dNorm > norm then put n s.a i v.neg else s.a
  let a := if s.last ≠ 0 ∧ s.last ≠ 1 then put n a (i - d) ((a (wrap n (i - d))).div s.last) else a
  ⟨a, Real.sqrt norm⟩

/-- Lines 341-344 and 360-363: the last row of the loop is normalised. -/
noncomputable def finish (n i : Int) (s : St) : Int → V :=
  open Classical in
  if s.last ≠ 0 ∧ s.last ≠ 1 then put n s.a i ((s.a (wrap n i)).div s.last) else s.a

/-- The norm at the start of each loop (lines 327, 346). -/
noncomputable def start (n idx : Int) (a : Int → V) : St :=
  ⟨a, Real.sqrt ((a (wrap n idx)).x ^ 2 + (a (wrap n idx)).y ^ 2 + (a (wrap n idx)).z ^ 2)⟩

/-- Lines 320-323: the row at the given index is turned to the side of the rough direction. -/
noncomputable def orient (n : Int) (a : Int → V) (rough : V) (idx : Int) : Int → V :=
  open Classical in
  if rough.x * (a (wrap n idx)).x + rough.y * (a (wrap n idx)).y + rough.z * (a (wrap n idx)).z < 0
    then put n a idx (a (wrap n idx)).neg else a

/-- `range(i_index - 1, -1, -1)` -/
def backward (idx : Int) : List Int := (List.range idx.toNat).map fun (k : Nat) => idx - 1 - (k : Int)

/-- `_LLDominantEigenvector(dpa, dpa_i, i_index)` (lines 316-363), `dpa` with `n` rows. -/
noncomputable def dominant (n : Int) (a : Int → V) (rough : V) (idx : Int) : Int → V :=
  let a := orient n a rough idx
  let a := finish n 0 ((backward idx).foldl (step n (-1)) (start n idx a))
  finish n (-1) ((pyRange (idx + 1) n).foldl (step n 1) (start n idx a))

end Verif.Dominant
