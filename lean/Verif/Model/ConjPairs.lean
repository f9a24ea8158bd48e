import Verif.Model.Modes
import Mathlib.Analysis.Complex.Basic

/-!
# Model of `convert_to_conjugate_pairs` and `convert_from_conjugate_pairs`

Complex numbers are exact (ℂ); `np.sqrt(2)` is the real square root of 2.
-/

namespace Verif.ConjPairs
open Verif.Modes ComplexConjugate

/-- Body of the inner loop of `convert_to_conjugate_pairs` (`scri/waveform_modes.py` lines
679-684). -/
noncomputable def toStep (ellMin : Int) (row : Row ℂ) (ell m : Int) : Row ℂ :=
  let iPlus := lmIndex ell m ellMin
  let iMinus := lmIndex ell (-m) ellMin
  let modePlus := row iPlus
  let modeMinus := row iMinus
  let row := row.set iPlus ((modePlus + conj modeMinus) / (Real.sqrt 2 : ℂ))
  row.set iMinus ((modePlus - conj modeMinus) / (Real.sqrt 2 : ℂ))

/-- `convert_to_conjugate_pairs` on one row (`scri/waveform_modes.py` lines 658-685). -/
noncomputable def convertTo (ellMin ellMax : Int) (row : Row ℂ) : Row ℂ :=
  (pyRange ellMin (ellMax + 1)).foldl (fun row ell =>
    (pyRange 1 (ell + 1)).foldl (fun row m => toStep ellMin row ell m) row) row

/-- Body of the inner loop of `convert_from_conjugate_pairs` (`scri/waveform_modes.py` lines
697-702). -/
noncomputable def fromStep (ellMin : Int) (row : Row ℂ) (ell m : Int) : Row ℂ :=
  let iPlus := lmIndex ell m ellMin
  let iMinus := lmIndex ell (-m) ellMin
  let modePlus := row iPlus
  let modeMinus := row iMinus
  let row := row.set iPlus ((modePlus + modeMinus) / (Real.sqrt 2 : ℂ))
  row.set iMinus (conj (modePlus - modeMinus) / (Real.sqrt 2 : ℂ))

/-- `convert_from_conjugate_pairs` on one row (`scri/waveform_modes.py` lines 687-703). -/
noncomputable def convertFrom (ellMin ellMax : Int) (row : Row ℂ) : Row ℂ :=
  (pyRange ellMin (ellMax + 1)).foldl (fun row ell =>
    (pyRange 1 (ell + 1)).foldl (fun row m => fromStep ellMin row ell m) row) row

end Verif.ConjPairs
