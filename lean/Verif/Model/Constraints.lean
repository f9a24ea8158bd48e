import Verif.Model.Charges
import Verif.Model.AbdModes

/-!
# Model of the constraint violations on modes (`scri/asymptotic_bondi_data/constraints.py`)

`Verif.Model.InitialValues` has the same functions with abstract operations on the sphere; here these are the operations on modes, with their truncation in `ell`, and the norms of the violations.
-/

namespace Verif.Constraints
open Verif.Charges

/-- The `Modes` of a function at one time: the spin weight, the largest `ell` and the weights. -/
structure Fn where
  spin : Int
  ellMax : Int
  modes : Modes

/-- The weight that an operation finds: those with `ell < |s|` are 0, and those beyond the largest `ell` are not stored. -/
def Fn.get (f : Fn) : Modes := fun ell m => if |f.spin| ≤ ell ∧ ell ≤ f.ellMax then f.modes ell m else 0

/-- `f + g` and `f - g` of `spherical_functions`: the spin weights have to agree, the result has the larger `ell_max`. -/
def Fn.add (f g : Fn) : Py Fn :=
  if f.spin = g.spin then .ok { spin := f.spin, ellMax := max f.ellMax g.ellMax, modes := fun ell m => f.get ell m + g.get ell m } else .error .valueError

def Fn.sub (f g : Fn) : Py Fn :=
  if f.spin = g.spin then .ok { spin := f.spin, ellMax := max f.ellMax g.ellMax, modes := fun ell m => f.get ell m - g.get ell m } else .error .valueError

/-- A number times `f`, and `-f`. -/
def Fn.smul (k : ℂ) (f : Fn) : Fn := { f with modes := fun ell m => k * f.modes ell m }
def Fn.neg (f : Fn) : Fn := { f with modes := fun ell m => -f.modes ell m }

/-- `f.eth_GHP`, `f.bar` -/
noncomputable def Fn.eth (f : Fn) : Fn := { f with spin := f.spin + 1, modes := ethGHP f.spin f.get }
noncomputable def Fn.bar (f : Fn) : Fn := { f with spin := -f.spin, modes := Charges.bar f.spin f.get }

/-- `np.imag(f)`, which is `f.imag`: the function has to have spin weight 0. -/
noncomputable def Fn.imag (f : Fn) : Py Fn :=
  if f.spin = 0 then .ok { f with modes := fun ell m => (f.get ell m - Charges.bar 0 f.get ell m) / (2 * Complex.I) } else .error .valueError

/-- `f * g`, with the `multiplication_truncator` of `f`: the largest `ell` of the result is `trunc` of the two. -/
def Fn.mul (mul : Int → Int → Modes → Modes → Modes) (trunc : Int → Int → Int) (f g : Fn) : Fn :=
  { spin := f.spin + g.spin, ellMax := trunc f.ellMax g.ellMax, modes := mul f.spin g.spin f.get g.get }

/-- `f.norm()` of `spherical_functions`. -/
noncomputable def Fn.norm (f : Fn) : ℝ := √(∑ ell ∈ Finset.Icc 0 f.ellMax, ∑ m ∈ Finset.Icc (-ell) ell, Complex.normSq (f.get ell m))

/-- The fields at one time, with the derivatives that are used. -/
structure Data where
  ellMax : Int
  psi0 : Modes
  psi1 : Modes
  psi2 : Modes
  psi3 : Modes
  psi4 : Modes
  sigma : Modes
  psi0Dot : Modes
  psi1Dot : Modes
  psi2Dot : Modes
  sigmaDot : Modes
  sigmaDdot : Modes

section
variable (mul : Int → Int → Modes → Modes → Modes) (trunc : Int → Int → Int) (d : Data)

/-- The attributes `psi0`, … of `AsymptoticBondiData` and their `dot`, `ddot` (`__init__.py` lines 64-73). -/
def Data.fn (s : Int) (f : Modes) : Fn := { spin := s, ellMax := d.ellMax, modes := f }

/-- `bianchi_0` with both sides (lines 95-123). -/
noncomputable def bianchi0 : Py (Fn × Fn) := do
  let rhs ← (d.fn 1 d.psi1).eth.add (((d.fn 2 d.sigma).smul 3).mul mul trunc (d.fn 0 d.psi2))
  pure (d.fn 2 d.psi0Dot, rhs)

/-- `bianchi_1` with both sides (lines 126-154). -/
noncomputable def bianchi1 : Py (Fn × Fn) := do
  let rhs ← (d.fn 0 d.psi2).eth.add (((d.fn 2 d.sigma).smul 2).mul mul trunc (d.fn (-1) d.psi3))
  pure (d.fn 1 d.psi1Dot, rhs)

/-- `bianchi_2` with both sides (lines 157-185). -/
noncomputable def bianchi2 : Py (Fn × Fn) := do
  let rhs ← (d.fn (-1) d.psi3).eth.add ((d.fn 2 d.sigma).mul mul trunc (d.fn (-2) d.psi4))
  pure (d.fn 0 d.psi2Dot, rhs)

/-- `constraint_3` with both sides (lines 188-216).  The derivative of a spline through the conjugates is the conjugate of the derivative. -/
noncomputable def constraint3 : Py (Fn × Fn) := .ok (d.fn (-1) d.psi3, (d.fn 2 d.sigmaDot).bar.eth.neg)

/-- `constraint_4` with both sides (lines 219-247). -/
noncomputable def constraint4 : Py (Fn × Fn) := .ok (d.fn (-2) d.psi4, (d.fn 2 d.sigmaDdot).bar.neg)

/-- `constraint_mass_aspect` with both sides (lines 250-280). -/
noncomputable def constraintMassAspect : Py (Fn × Fn) := do
  let lhs ← (d.fn 0 d.psi2).imag
  let sum ← (d.fn 2 d.sigma).bar.eth.eth.add ((d.fn 2 d.sigma).mul mul trunc (d.fn 2 d.sigmaDot).bar)
  let im ← sum.imag
  pure (lhs, im.neg)

/-- `bondi_constraints` (lines 9-38). -/
noncomputable def bondiConstraints : Py (List (Fn × Fn)) := do
  let b0 ← bianchi0 mul trunc d
  let b1 ← bianchi1 mul trunc d
  let b2 ← bianchi2 mul trunc d
  let c3 ← constraint3 d
  let c4 ← constraint4 d
  let m ← constraintMassAspect mul trunc d
  pure [b0, b1, b2, c3, c4, m]

/-- `bondi_violations` (lines 41-64). -/
noncomputable def bondiViolations : Py (List Fn) := do
  let constraints ← bondiConstraints mul trunc d
  constraints.mapM fun p => p.1.sub p.2

/-- `bondi_violation_norms` (lines 67-92). -/
noncomputable def bondiViolationNorms : Py (List ℝ) := do
  let violations ← bondiViolations mul trunc d
  pure (violations.map Fn.norm)

end

/-! ## The series -/

/-- An `AsymptoticBondiData` with its `multiplication_truncator`. -/
structure Abd where
  abd : AbdModes.Abd
  trunc : Int → Int → Int

/-- `transform` (`transformations.py` line 417): the result is made with the default truncator, `sum`. -/
noncomputable def transform (spline : List (ℝ × ℂ) → ℝ → ℂ) (map2salm : List ℂ → Nat → Nat → Int → Int → Verif.Modes.Row ℂ) (a : Abd) (kw : TransformKwargs.Kw) : Py Abd := do
  let b ← AbdModes.transform spline map2salm a.abd kw
  pure { abd := b, trunc := fun l l' => l + l' }

end Verif.Constraints
