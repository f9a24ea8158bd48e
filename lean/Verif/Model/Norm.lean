import Verif.Py.Slice
import Mathlib.Analysis.Complex.Basic

/-!
# Model of `norm`, `max_norm_index`, `max_norm_time` (`scri/waveform_base.py`)

`data_2d` is a list of rows (one per time) of complex numbers; arithmetic is exact.
-/

namespace Verif.Norm

/-- The inner loop of `complex_array_norm` (`scri/waveform_base.py` lines 22-24):
`s[i] = 0.0; for j ...: s[i] += c[i, j].real ** 2 + c[i, j].imag ** 2`. -/
noncomputable def rowNorm (r : List ℂ) : ℝ :=
  r.foldl (fun s z => s + (z.re ^ 2 + z.im ^ 2)) 0

/-- `norm(take_sqrt, indices)` (lines 535-551), with `complex_array_norm` (19-25) or
`complex_array_abs` (28-35).  `n` has one entry per selected time, and the loops run over
`range(len(n))`; `t` and `data` have the same length, so the rows are the selected ones. -/
noncomputable def normArr (data : List (List ℂ)) (takeSqrt : Bool) (indices : PySlice) : Py (List ℝ) := do
  let rows ← pySlice data indices
  pure (rows.map fun r => if takeSqrt then Real.sqrt (rowNorm r) else rowNorm r)

/-- The loop of `np.argmax` over the entries from number `i` on: the running maximum is `best` at
`bi`. -/
def argmaxFrom {α : Type} [LinearOrder α] (best : α) (bi : Nat) : Nat → List α → Nat
  | _, [] => bi
  | i, x :: l => if best < x then argmaxFrom x i (i + 1) l else argmaxFrom best bi (i + 1) l

/-- `np.argmax`: the first position of the maximum; an empty array is a `ValueError`. -/
def argmax {α : Type} [LinearOrder α] : List α → Py Nat
  | [] => .error .valueError
  | x :: l => .ok (argmaxFrom x 0 1 l)

/-- `max_norm_index(skip_fraction_of_data)` (lines 553-568); `//` is floor division. -/
noncomputable def maxNormIndex (data : List (List ℂ)) (skip : Int) : Py Int :=
  if skip = 0 ∨ skip = 1 then do
    let n ← normArr data false ⟨none, none, none⟩
    let i ← argmax n
    pure (i : Int)
  else do
    let start := Int.fdiv (data.length : Int) skip
    let n ← normArr data false ⟨some start, none, none⟩
    let i ← argmax n
    pure ((i : Int) + start)

/-- `max_norm_time(skip_fraction_of_data)` (lines 570-576). -/
noncomputable def maxNormTime {τ : Type} (t : List τ) (data : List (List ℂ)) (skip : Int) : Py τ := do
  let i ← maxNormIndex data skip
  pyGet t i

end Verif.Norm
