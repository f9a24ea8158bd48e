import Verif.Py.Basic
import Mathlib.Analysis.SpecialFunctions.Log.Basic

/-!
# Model of the transition functions of `scri/utilities.py` (lines 8-191)

Numbers are exact reals.  The compiled loops read `x[i]` without checking bounds, so running off the end of the
array is the error `outOfBounds` here.
-/

namespace Verif.Transition

/-- `maxexp = np.finfo(float).maxexp * np.log(2) * 0.99` (line 8), with `np.finfo(float).maxexp == 1024`. -/
noncomputable def maxexp : ℝ := 1024 * Real.log 2 * (99 / 100)

/-- `while p(x[i]): out[i] = body(x[i]); i += 1`, on the part of the array from `i` on.  The result is what has been
written and the part of the array that is left. -/
def loop (p : ℝ → Prop) [DecidablePred p] (body : ℝ → ℝ) : List ℝ → Py (List ℝ × List ℝ)
  | [] => .error .outOfBounds
  | x :: xs =>
    if p x then do
      let (ys, rest) ← loop p body xs
      pure (body x :: ys, rest)
    else .ok ([], x :: xs)

/-- The exponent (lines 21-22, 88-89, 139-140, 151-152). -/
noncomputable def exponent (x0 x1 x : ℝ) : ℝ :=
  let tau := (x - x0) / (x1 - x0)
  1 / tau - 1 / (1 - tau)

/-- The values in the region of the transition (lines 21-26, and 139-144, 151-156 of `bump_function`). -/
noncomputable def inside (x0 x1 y0 y1 x : ℝ) : ℝ :=
  if exponent x0 x1 x ≥ maxexp then y0 else y0 + (y1 - y0) / (1 + Real.exp (exponent x0 x1 x))

/-- `_transition_function(x, x0, x1, y0, y1)` (lines 11-30): the values and the two indices. -/
noncomputable def transitionFunction (x : List ℝ) (x0 x1 y0 y1 : ℝ) : Py (List ℝ × Nat × Nat) := do
  let (a, x) ← loop (· ≤ x0) (fun _ => y0) x
  let (b, x) ← loop (· < x1) (inside x0 x1 y0 y1) x
  pure (a ++ b ++ x.map (fun _ => y1), a.length, a.length + b.length)

/-- The derivative in the region of the transition (lines 88-100). -/
noncomputable def insideDerivative (x0 x1 y0 y1 x : ℝ) : ℝ :=
  let tau := (x - x0) / (x1 - x0)
  if exponent x0 x1 x ≥ maxexp then 0 else
    let exponential := Real.exp (1 / tau - 1 / (1 - tau));
    -(y1 - y0) * exponential * (-1 / tau ^ 2 - 1 / (1 - tau) ^ 2) * (1 / (x1 - x0)) / (1 + exponential) ^ 2

/-- `transition_function_derivative(x, x0, x1, y0, y1)` (lines 61-102). -/
noncomputable def transitionFunctionDerivative (x : List ℝ) (x0 x1 y0 y1 : ℝ) : Py (List ℝ) := do
  let (a, x) ← loop (· ≤ x0) (fun _ => 0) x
  let (b, x) ← loop (· < x1) (insideDerivative x0 x1 y0 y1) x
  pure (a ++ b ++ x.map (fun _ => 0))

/-- `bump_function(x, x0, x1, x2, x3, y0, y12, y3)` (lines 105-159). -/
noncomputable def bumpFunction (x : List ℝ) (x0 x1 x2 x3 y0 y12 y3 : ℝ) : Py (List ℝ) := do
  let (a, x) ← loop (· ≤ x0) (fun _ => y0) x
  let (b, x) ← loop (· < x1) (inside x0 x1 y0 y12) x
  let (c, x) ← loop (· ≤ x2) (fun _ => y12) x
  let (d, x) ← loop (· < x3) (inside x2 x3 y12 y3) x
  pure (a ++ b ++ c ++ d ++ x.map (fun _ => y3))

/-- `transition_to_constant(f, t, t1, t2)` (lines 162-191).  `integral` is `quaternion.indefinite_integral`.  If the
first time is already past `t2` the index `i2 - 1` is `-1`, the last element.  `f` and `t` have the same length. -/
noncomputable def transitionToConstant (integral : List ℝ → List ℝ → Py (List ℝ)) (f t : List ℝ) (t1 t2 : ℝ) : Py (List ℝ) := do
  let (transition, i1, i2) ← transitionFunction t t1 t2 1 0
  let transitionDot ← transitionFunctionDerivative t t1 t2 1 0
  let g := List.zipWith (· * ·) f transition
  let I ← integral (List.zipWith (· * ·) ((f.drop i1).take (i2 - i1)) ((transitionDot.drop i1).take (i2 - i1))) ((t.drop i1).take (i2 - i1))
  let g := g.take i1 ++ List.zipWith (· - ·) ((g.drop i1).take (i2 - i1)) I ++ g.drop i2
  let c ← pyGet g ((i2 : Int) - 1)
  pure (g.take i2 ++ (g.drop i2).map (fun _ => c))

end Verif.Transition
