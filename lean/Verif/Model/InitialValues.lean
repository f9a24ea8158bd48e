import Mathlib.Analysis.Calculus.Deriv.Basic
import Mathlib.Analysis.Normed.Operator.Bilinear
import Mathlib.Analysis.Normed.Operator.ContinuousLinearMap
import Mathlib.Analysis.Complex.Basic
import Mathlib.MeasureTheory.Integral.IntervalIntegral.Basic

/-!
# Model of the construction of Bondi data from initial values, and of the constraints

`scri/asymptotic_bondi_data/from_initial_values.py`; `scri/asymptotic_bondi_data/constraints.py`.

`M` is the space of the mode weights of spin-weighted functions on the sphere.  Multiplication (with whatever truncation in `ell` the truncator `max` gives), `eth_GHP` and `bar` are operations on it of which only real
linearity and the properties in `Sphere` are used.  A `ModesTimeSeries` is a function of time; `dot`, `ddot` are its derivatives and `int` its integral from the first time (the code takes those of a spline).
-/

namespace Verif.InitialValues

/-- The operations on mode weights. -/
structure Sphere (M : Type*) [NormedAddCommGroup M] [NormedSpace ℂ M] where
  /-- `eth_GHP` -/
  eth : M →L[ℝ] M
  /-- `*` -/
  mul : M →L[ℝ] M →L[ℝ] M
  /-- `bar` -/
  bar : M →L[ℝ] M
  bar_bar : ∀ x, bar (bar x) = x
  bar_I : ∀ x, bar (Complex.I • x) = -(Complex.I • bar x)
  mul_comm : ∀ x y, mul x y = mul y x
  bar_mul : ∀ x y, bar (mul x y) = mul (bar x) (bar y)

variable {M : Type*} [NormedAddCommGroup M] [NormedSpace ℂ M]

/-- `.real` and `.imag` of a function of spin weight 0. -/
noncomputable def Sphere.re (A : Sphere M) (x : M) : M := (1 / 2 : ℝ) • (x + A.bar x)
noncomputable def Sphere.im (A : Sphere M) (x : M) : M := (1 / (2 * Complex.I) : ℂ) • (x - A.bar x)

/-- `AsymptoticBondiData`, as functions of time. -/
structure ABD (M : Type*) where
  sigma : ℝ → M
  psi4 : ℝ → M
  psi3 : ℝ → M
  psi2 : ℝ → M
  psi1 : ℝ → M
  psi0 : ℝ → M

/-- `from_initial_values`, first branch (lines 85-127): `sigma0` does not depend on time. -/
noncomputable def fromPoly (A : Sphere M) (sigma0 sigmadot0 sigmaddot0 psi2 psi1 psi0 : M) : ABD M :=
  let s0 := sigma0
  let s1 := sigmadot0
  let s2 := (1 / 2 : ℝ) • sigmaddot0
  let p4_0 := -((2 : ℝ) • A.bar s2)
  let p3_0 := -(A.eth (A.bar s1))
  let p3_1 := -((2 : ℝ) • A.eth (A.bar s2))
  let p2_0 := A.re psi2 - Complex.I • A.im (A.eth (A.eth (A.bar s0)) + A.mul s0 (A.bar s1))
  let p2_1 := A.mul s0 p4_0 + A.eth p3_0
  let p2_2 := (1 / 2 : ℝ) • (A.mul s1 p4_0 + A.eth p3_1)
  let p2_3 := A.mul ((1 / 3 : ℝ) • s2) p4_0
  let p1_0 := psi1
  let p1_1 := A.mul ((2 : ℝ) • s0) p3_0 + A.eth p2_0
  let p1_2 := A.mul s0 p3_1 + A.mul s1 p3_0 + (1 / 2 : ℝ) • A.eth p2_1
  let p1_3 := (1 / 3 : ℝ) • (A.mul ((2 : ℝ) • s1) p3_1 + A.mul ((2 : ℝ) • s2) p3_0 + A.eth p2_2)
  let p1_4 := (1 / 4 : ℝ) • (A.mul ((2 : ℝ) • s2) p3_1 + A.eth p2_3)
  let p0_0 := psi0
  let p0_1 := A.mul ((3 : ℝ) • s0) p2_0 + A.eth p1_0
  let p0_2 := (1 / 2 : ℝ) • (A.mul ((3 : ℝ) • s0) p2_1 + A.mul ((3 : ℝ) • s1) p2_0 + A.eth p1_1)
  let p0_3 := A.mul s0 p2_2 + A.mul s1 p2_1 + A.mul s2 p2_0 + (1 / 3 : ℝ) • A.eth p1_2
  let p0_4 := (1 / 4 : ℝ) • (A.mul ((3 : ℝ) • s0) p2_3 + A.mul ((3 : ℝ) • s1) p2_2 + A.mul ((3 : ℝ) • s2) p2_1 + A.eth p1_3)
  let p0_5 := (1 / 5 : ℝ) • (A.mul ((3 : ℝ) • s1) p2_3 + A.mul ((3 : ℝ) • s2) p2_2 + A.eth p1_4)
  let p0_6 := (1 / 2 : ℝ) • A.mul s2 p2_3
  { sigma := fun u => u • (u • s2 + s1) + s0
    psi4 := fun _ => p4_0
    psi3 := fun u => u • p3_1 + p3_0
    psi2 := fun u => u • (u • (u • p2_3 + p2_2) + p2_1) + p2_0
    psi1 := fun u => u • (u • (u • (u • p1_4 + p1_3) + p1_2) + p1_1) + p1_0
    psi0 := fun u => u • (u • (u • (u • (u • (u • p0_6 + p0_5) + p0_4) + p0_3) + p0_2) + p0_1) + p0_0 }

/-- `from_initial_values`, second branch (lines 128-150): `sigma0` is a function of time; `u0` is `time[0]`. -/
noncomputable def fromSeries (A : Sphere M) (u0 : ℝ) (sigma0 : ℝ → M) (psi2 psi1 psi0 : M) : ABD M :=
  let sigma := sigma0
  let p4 := fun u => -(A.bar (deriv (deriv sigma) u))
  let p3 := fun u => -(A.eth (A.bar (deriv sigma u)))
  let p2 := fun u => (∫ v in u0..u, (A.eth (p3 v) + A.mul (sigma v) (p4 v))) +
    (A.re psi2 - Complex.I • A.im (A.eth (A.eth (A.bar (sigma u0))) + A.mul (sigma u0) (deriv (fun v => A.bar (sigma v)) u0)))
  let p1 := fun u => (∫ v in u0..u, (A.eth (p2 v) + A.mul ((2 : ℝ) • sigma v) (p3 v))) + psi1
  let p0 := fun u => (∫ v in u0..u, (A.eth (p1 v) + A.mul ((3 : ℝ) • sigma v) (p2 v))) + psi0
  { sigma := sigma, psi4 := p4, psi3 := p3, psi2 := p2, psi1 := p1, psi0 := p0 }

/-! ## `constraints.py` -/

/-- What a constraint function returns for the flags `lhs`, `rhs`: both sides, one of them or `None` (lines 118-123 and the same in the other functions). -/
inductive Sides (X : Type*) where
  | both (l r : X)
  | one (x : X)
  | none

def sides {X : Type*} (lhs rhs : Bool) (l r : X) : Sides X :=
  if lhs && rhs then .both l r else if lhs then .one l else if rhs then .one r else .none

/-- `bianchi_0` (lines 95-123). -/
noncomputable def bianchi0 (A : Sphere M) (d : ABD M) (lhs rhs : Bool) : Sides (ℝ → M) :=
  sides lhs rhs (deriv d.psi0) (fun u => A.eth (d.psi1 u) + A.mul ((3 : ℝ) • d.sigma u) (d.psi2 u))

/-- `bianchi_1` (lines 126-154). -/
noncomputable def bianchi1 (A : Sphere M) (d : ABD M) (lhs rhs : Bool) : Sides (ℝ → M) :=
  sides lhs rhs (deriv d.psi1) (fun u => A.eth (d.psi2 u) + A.mul ((2 : ℝ) • d.sigma u) (d.psi3 u))

/-- `bianchi_2` (lines 157-185). -/
noncomputable def bianchi2 (A : Sphere M) (d : ABD M) (lhs rhs : Bool) : Sides (ℝ → M) :=
  sides lhs rhs (deriv d.psi2) (fun u => A.eth (d.psi3 u) + A.mul (d.sigma u) (d.psi4 u))

/-- `constraint_3` (lines 188-216). -/
noncomputable def constraint3 (A : Sphere M) (d : ABD M) (lhs rhs : Bool) : Sides (ℝ → M) :=
  sides lhs rhs d.psi3 (fun u => -(A.eth (deriv (fun v => A.bar (d.sigma v)) u)))

/-- `constraint_4` (lines 219-247). -/
noncomputable def constraint4 (A : Sphere M) (d : ABD M) (lhs rhs : Bool) : Sides (ℝ → M) :=
  sides lhs rhs d.psi4 (fun u => -(deriv (deriv fun v => A.bar (d.sigma v)) u))

/-- `constraint_mass_aspect` (lines 250-280). -/
noncomputable def constraintMassAspect (A : Sphere M) (d : ABD M) (lhs rhs : Bool) : Sides (ℝ → M) :=
  sides lhs rhs (fun u => A.im (d.psi2 u)) (fun u => -(A.im (A.eth (A.eth (A.bar (d.sigma u))) + A.mul (d.sigma u) (deriv (fun v => A.bar (d.sigma v)) u))))

/-- `bondi_constraints` (lines 9-37). -/
noncomputable def bondiConstraints (A : Sphere M) (d : ABD M) (lhs rhs : Bool) : List (Sides (ℝ → M)) :=
  [bianchi0 A d lhs rhs, bianchi1 A d lhs rhs, bianchi2 A d lhs rhs, constraint3 A d lhs rhs, constraint4 A d lhs rhs, constraintMassAspect A d lhs rhs]

/-- `lhs - rhs` for the pairs; anything else does not unpack to two values. -/
def violation (s : Sides (ℝ → M)) : Option (ℝ → M) := match s with
  | .both l r => some fun u => l u - r u
  | _ => none

/-- `bondi_violations` (lines 40-64). -/
noncomputable def bondiViolations (A : Sphere M) (d : ABD M) : List (Option (ℝ → M)) := (bondiConstraints A d true true).map violation

end Verif.InitialValues
