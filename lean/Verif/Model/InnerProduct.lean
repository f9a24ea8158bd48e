import Verif.Model.Flux

/-!
# Model of `WaveformModes.inner_product` (`scri/waveform_modes.py` lines 574-656)

The spline quadrature `spline_definite_integral` is a sum with real weights that depend on the times and the
limits only; the weights are a parameter.
-/

namespace Verif.InnerProduct
open Verif.Slicing Verif.Flux ComplexConjugate

/-- `spline_definite_integral(integrand, times, t1, t2)` (external). -/
noncomputable def sdi (weights : List ℝ → ℝ → ℝ → Nat → ℝ) (f : List ℂ) (times : List ℝ) (t1 t2 : ℝ) : ℂ :=
  ((List.range f.length).map fun k => (weights times t1 t2 k : ℂ) * f.getD k 0).sum

/-- The choice of `LM_clip` (lines 613-622). -/
def lmClip (a b : Modes) (allowLM : Bool) : Py (Option (Int × Int)) :=
  if a.w.ellMin ≠ b.w.ellMin ∨ a.w.ellMax ≠ b.w.ellMax then
    if allowLM then
      let start := max a.w.ellMin b.w.ellMin
      let stop := min a.w.ellMax b.w.ellMax + 1
      if start ≥ stop then .error .valueError else .ok (some (start, stop))
    else .error .valueError
  else .ok none

/-- `A[:, LM_clip]`, or `A` if there is nothing to clip (lines 639-641). -/
def clipped (w : WM ℝ Unit ℂ) : Option (Int × Int) → Py (WM ℝ Unit ℂ)
  | none => .ok w
  | some (start, stop) => getitem w (.tuple [.slice ⟨none, none, none⟩, .slice ⟨some start, some stop, none⟩])

/-- Interpolation if the times differ (lines 643-646). -/
def timed (interp : WM ℝ Unit ℂ → List ℝ → WM ℝ Unit ℂ) (w : WM ℝ Unit ℂ) : Option (List ℝ) → WM ℝ Unit ℂ
  | none => w
  | some t => interp w t

/-- `np.sum(np.conj(A.data) * B.data, axis=1)` (line 654); arrays of different shape do not multiply.  (Numpy would
broadcast along axes of length one; the two arrays have the same shape whenever the waveforms are valid.) -/
noncomputable def integrand (A B : List (List ℂ)) : Py (List ℂ) :=
  if A.map List.length ≠ B.map List.length then .error .valueError
  else .ok (List.zipWith (fun x y => (List.zipWith (fun u v => conj u * v) x y).sum) A B)

/-- `t1 = times[0]`, `t2 = times[-1]` unless given (lines 648-652). -/
def limit (times : List ℝ) (given : Option ℝ) (i : Int) : Py ℝ :=
  match given with
  | some t => .ok t
  | none => pyGet times i

/-- `inner_product(self, b, t1, t2, allow_LM_differ, allow_times_differ)` (lines 574-656). -/
noncomputable def innerProduct (interp : WM ℝ Unit ℂ → List ℝ → WM ℝ Unit ℂ) (weights : List ℝ → ℝ → ℝ → Nat → ℝ)
    (a b : Modes) (t1 t2 : Option ℝ) (allowLM allowT : Bool) : Py ℂ := do
  if a.spin ≠ b.spin then .error .valueError
  let lm ← lmClip a b allowLM
  let tc ← clipT a b allowT
  let A ← clipped a.w lm
  let B ← clipped b.w lm
  let A := timed interp A tc
  let B := timed interp B tc
  let times := tc.getD a.w.t
  let x1 ← limit times t1 0
  let x2 ← limit times t2 (-1)
  let f ← integrand A.data B.data
  pure (sdi weights f times x1 x2)

end Verif.InnerProduct
