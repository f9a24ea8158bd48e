import Verif.Model.Bms

/-!
# Specification of Lorentz and BMS transformations

Minkowski space, and future null infinity with its retarded time and directions.
-/

namespace Verif.Spec.Bms

open Verif.AbdTransform Verif.Bms Matrix

abbrev Vec := Fin 3 → ℝ

/-- An event: time and place. -/
abbrev Four := ℝ × Vec

noncomputable def dot (a b : Vec) : ℝ := ∑ i, a i * b i

/-- `γ` for a velocity. -/
noncomputable def gam (v : Vec) : ℝ := 1 / √(1 - dot v v)

/-- The rotation `x ↦ q x q⁻¹`. -/
noncomputable def rot (q : Quaternion ℝ) (X : Four) : Four := (X.1, rotateVec q X.2)

/-- The boost that takes the observer at rest to the observer with velocity `v`. -/
noncomputable def boost (v : Vec) (X : Four) : Four :=
  (gam v * (X.1 + dot v X.2), X.2 + (gam v ^ 2 / (gam v + 1) * dot v X.2 + gam v * X.1) • v)

/-- The Lorentz transformation with matrix "boost × rotation". -/
noncomputable def act (q : Quaternion ℝ) (v : Vec) (X : Four) : Four := boost v (rot q X)

/-- A direction, as a null vector. -/
def null (r : Vec) : Four := (1, r)

def Sphere (r : Vec) : Prop := dot r r = 1

/-- A point of null infinity: retarded time and direction. -/
abbrev Scri := ℝ × Vec

/-- The direction and the conformal factor of a null vector `k (1, r)`. -/
noncomputable def dir (X : Four) : Vec := X.1⁻¹ • X.2

/-- The point, in the coordinates of the old frame, that has coordinates `(u', r')` in the new frame: the direction is `Λ (1, r')`, and the times are related by `u' = k (u - S(r))`. -/
noncomputable def toOld (S : Vec → ℝ) (Λ : Four → Four) (p : Scri) : Scri :=
  let X := Λ (null p.2)
  (p.1 / X.1 + S (dir X), dir X)

/-- The parts of a transformation, applied to an event in the order in which they are listed. -/
noncomputable def lorentz (o : Order) (q : Quaternion ℝ) (v : Vec) (X : Four) : Four :=
  o.foldl (fun X n => match n with | .frame_rotation => rot q X | .boost_velocity => boost v X | _ => X) X

/-- The inverse of `lorentz`: the inverse parts, in the opposite order. -/
noncomputable def lorentzInv (o : Order) (q : Quaternion ℝ) (v : Vec) (X : Four) : Four :=
  o.foldr (fun n X => match n with | .frame_rotation => rot (star q) X | .boost_velocity => boost (-v) X | _ => X) X

/-- The parts that are listed before the supertranslation. -/
def before (o : Order) : Order := o.takeWhile (· ≠ .supertranslation)

/-- The supertranslation of the whole transformation: `S` is a function of the directions after the parts that are listed before it.  A supertranslation has weight 1,
that is, `k S` for `k (1, r)`. -/
noncomputable def superOf (b : BMS) (r : Vec) : ℝ :=
  let X := lorentzInv (before b.order) b.q b.v (null r)
  X.1 * b.S.f (dir X)

/-- The group element of a BMS transformation, as a map of null infinity from the new to the old coordinates. -/
noncomputable def element (b : BMS) (p : Scri) : Scri := toOld (superOf b) (lorentz b.order b.q b.v) p

/-- The six orders. -/
def orders : List Order :=
  [[.supertranslation, .frame_rotation, .boost_velocity], [.frame_rotation, .supertranslation, .boost_velocity], [.frame_rotation, .boost_velocity, .supertranslation],
   [.supertranslation, .boost_velocity, .frame_rotation], [.boost_velocity, .supertranslation, .frame_rotation], [.boost_velocity, .frame_rotation, .supertranslation]]

/-- The rotor of an object is a unit quaternion other than -1. -/
def Rotor (q : Quaternion ℝ) : Prop := Quaternion.normSq q = 1 ∧ q ≠ -1

/-- What is assumed of `np.linalg.svd`: `A = u diag(s) vh` with unitary matrices `u`, `vh` and `s ≥ 0`. -/
def SvdOk (ext : Ext) : Prop :=
  ∀ A : Mat, A.det = 1 → ((ext.svd A).1 * (ext.svd A).1ᴴ = 1 ∧ (ext.svd A).2.2 * (ext.svd A).2.2ᴴ = 1 ∧ (∀ i, 0 ≤ (ext.svd A).2.1 i) ∧
    A = (ext.svd A).1 * Matrix.diagonal (fun i => ((ext.svd A).2.1 i : ℂ)) * (ext.svd A).2.2)

/-- Equality of functions on the sphere. -/
def SEq (f g : Vec → ℝ) : Prop := ∀ r, Sphere r → f r = g r

/-- A BMS transformation as it can occur: the rotor is a unit quaternion other than -1, the velocity is less than 1, the array fits. -/
def Valid (b : BMS) : Prop := Rotor b.q ∧ dot b.v b.v < 1 ∧ 1 ≤ b.ellMax ∧ b.S.ell ≤ b.ellMax ∧ b.order ∈ orders

/-- The condition under which `reorder` does not fail: a Lorentz transformation that comes from a matrix has `ell_max` 12. -/
def Room (b : BMS) (o : Order) : Prop := 12 ≤ b.ellMax ∨ (b.order ≠ [.boost_velocity, .frame_rotation, .supertranslation] ∧ o.head? = some .supertranslation)

end Verif.Spec.Bms
