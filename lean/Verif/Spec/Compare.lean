import Verif.Model.Compare

/-!
# What `compare` is supposed to return
-/

namespace Verif.Compare.Spec

open Verif.Modes

/-- One column for every mode. -/
def Valid (W : Wf) : Prop := 0 ≤ W.ellMin ∧ W.cols.length = (LMRange W.ellMin W.ellMax).length

/-- `col` holds the mode `(l, m)` of the waveform. -/
def IsMode (W : Wf) (l m : Int) (col : List ℂ) : Prop := ∃ i : Nat, (LMRange W.ellMin W.ellMax)[i]? = some (l, m) ∧ W.cols[i]? = some col

/-- The value of a complex function of time, given by its values on a grid, at another time: real and imaginary parts are interpolated. -/
noncomputable def value (spline : List ℝ → List ℝ → ℝ → ℝ) (t : List ℝ) (col : List ℂ) (x : ℝ) : ℂ :=
  (spline t (col.map Complex.re) x : ℂ) + Complex.I * (spline t (col.map Complex.im) x : ℂ)

/-- `C` holds the differences of `A` and `B`, mode by mode. -/
def Difference (spline : List ℝ → List ℝ → ℝ → ℝ) (A B C : Wf) : Prop :=
  C.ellMin = A.ellMin ∧ C.ellMax = A.ellMax ∧ Valid C ∧
    ∀ l m a b c, IsMode A l m a → IsMode B l m b → IsMode C l m c → c = C.t.map fun x => value spline A.t a x - value spline B.t b x

/-- The frame `F` takes the frame `b` into the frame `a`, up to one sign for all times. -/
def Takes (F a b : List ℍ) : Prop := F.length = a.length ∧ ∃ s : ℝ, (s = 1 ∨ s = -1) ∧ ∀ (i : Nat) (f x y : ℍ), F[i]? = some f → a[i]? = some x → b[i]? = some y → y ≠ 0 → f * y = s • x

end Verif.Compare.Spec
