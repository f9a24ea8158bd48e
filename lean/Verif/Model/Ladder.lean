import Verif.Model.Modes
import Mathlib.Analysis.Complex.Basic

/-!
# Model of `ladder_factor` and `apply_eth` (`scri/waveform_modes.py` lines 478-562)

Real and complex numbers are exact.
-/

namespace Verif.Ladder
open Verif.Modes

/-- An element of `operations`: a string (a list of characters) or an integer. -/
inductive Elem where
  | str (s : List Char)
  | int (n : Int)
  deriving DecidableEq

/-- The letter eth, U+00F0. -/
def ethChar : Char := 'ð'
/-- The combining overline, U+0305, which follows eth in the spelling of ethbar. -/
def barChar : Char := Char.ofNat 0x305

/-- `op_dict` (line 499); `none` when the key is missing. -/
def opDict : Elem → Option Int
  | .str s =>
    if s = [ethChar] then some 1
    else if s = [ethChar, barChar] then some (-1)
    else if s = ['+'] then some 1
    else if s = ['-'] then some (-1)
    else none
  | .int n => if n = 1 then some 1 else if n = -1 then some (-1) else none

/-- `operations.replace("ð̅", "-")` (line 504). -/
def replaceBar : List Char → List Char
  | a :: b :: l => if a = ethChar ∧ b = barChar then '-' :: replaceBar l else a :: replaceBar (b :: l)
  | l => l

/-- `.replace("ð", "+")` (line 504). -/
def replaceEth (s : List Char) : List Char := s.map fun c => if c = ethChar then '+' else c

/-- The argument `operations`: a string or a list. -/
inductive Operations where
  | string (s : List Char)
  | list (l : List Elem)

/-- The sequence iterated over after line 504. -/
def elements : Operations → List Elem
  | .string s => (replaceEth (replaceBar s)).map fun c => .str [c]
  | .list l => l

/-- `conv_dict` (line 500). -/
noncomputable def convDict (c : String) : Option ℝ :=
  if c = "NP" then some 1 else if c = "GHP" then some (1 / 2) else none

/-- State of the loop at lines 518-526. -/
structure St where
  ladder : ℝ
  signFactor : ℝ
  s : Int

/-- Loop body (lines 522-526) with `sign = op_dict[op]`. -/
noncomputable def body (ell : Int) (conv : ℝ) (st : St) (sign : Int) : St where
  signFactor := st.signFactor * sign
  ladder := st.ladder *
    (if ell ≥ |st.s| then ((ell - st.s * sign : Int) : ℝ) * ((ell + st.s * sign : Int) + 1 : ℝ) else 0) * conv
  s := st.s + sign

/-- `ladder_factor(operations, s, ell, eth_convention)` (lines 478-529). -/
noncomputable def ladderFactor (ops : Operations) (s ell : Int) (conv : String) : Py ℝ :=
  let l := elements ops
  if l.all (fun e => (opDict e).isSome) then
    match convDict conv with
    | none => .error .valueError
    | some c =>
      let st := (l.reverse.filterMap opDict).foldl (body ell c) ⟨1, 1, s⟩
      .ok (st.signFactor * Real.sqrt st.ladder)
  else .error .valueError

/-- `apply_eth(operations, eth_convention)` on one row (lines 531-562). -/
noncomputable def applyEth (ops : Operations) (s ellMin ellMax : Int) (conv : String) (row : Row ℂ) :
    Py (Row ℂ) :=
  (pyRange ellMin (ellMax + 1)).foldlM (fun out ell => do
    let f ← ladderFactor ops s ell conv
    let idx := (pyRange (-ell) (ell + 1)).map fun m => lmIndex ell m ellMin
    pure (out.assign idx (idx.map fun i => out i * (f : ℂ)))) row

end Verif.Ladder
