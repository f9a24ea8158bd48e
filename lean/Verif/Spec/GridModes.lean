import Verif.Model.GridModes
import Verif.Spec.Rotation
import Verif.Spec.GridMultiply

/-!
# Transformations of waveforms by way of a grid: what is meant
-/

namespace Verif.GridModes.Spec

open Verif Verif.Modes Verif.TransformKwargs Verif.GridModes
open Verif.GridMultiply (rect)
open Verif.GridMultiply.Spec (expansion)

/-- A spline passes through its points. -/
def Interpolates (spline : List (ℝ × ℝ) → ℝ → ℝ) : Prop :=
  ∀ nodes : List (ℝ × ℝ), (nodes.map Prod.fst).Pairwise (· < ·) → ∀ p ∈ nodes, spline nodes p.1 = p.2

/-- The contract of `map2salm`: from the values, on a grid with at least `2 K + 1` points in both angles, of a function with modes up to `K` it finds the modes up to `lmax ≤ K`. -/
def Exact (map2salm : List ℂ → Nat → Nat → Int → Int → Row ℂ) : Prop :=
  ∀ (nt np : Nat) (s K lmax : Int) (c : Int → Int → ℂ) (ell m : Int), 0 ≤ K → 2 * K + 1 ≤ nt → 2 * K + 1 ≤ np → lmax ≤ K → |s| ≤ ell → ell ≤ lmax → -ell ≤ m → m ≤ ell →
    map2salm ((rect nt np).map (expansion s K c)) nt np s lmax (lmIndex ell m 0) = c ell m

/-- The same modes as in `Spec/Rotation`. -/
def wave (w : WModes) : Rotation.Wave := { ellMin := w.ellMin, ellMax := w.ellMax, data := w.data, frame := .vec w.frame }

/-- The mode `(ell, m)` at time number `i`. -/
def mode (w : WModes) (i : Nat) (ell m : Int) : ℂ := Verif.Spec.Rotation.mode (wave w) i ell m

/-- The waveforms that can be transformed: inertial, with one of the types from `psi0` to `news`, which has the spin weight `s`; at least four times, which increase; all modes with `ell ≥ |s|` can be there. -/
structure Good (w : WModes) (s : Int) : Prop where
  inertial : w.inertial = true
  type1 : Weights.psi0 ≤ w.dataType
  type2 : w.dataType ≤ Weights.news
  spin : Weights.spinWeight w.dataType = .ok s
  times : 4 ≤ w.t.length
  increasing : w.t.Pairwise (· < ·)
  rows : w.data.length = w.t.length
  ellMin : 0 ≤ w.ellMin
  order : w.ellMin ≤ w.ellMax
  ellMax : |s| ≤ w.ellMax

/-- The keywords say: a time translation by `tau` and a rotation of the frame by `R`, nothing else. -/
structure TimeAndRotation (kw : Kw) (tau : ℝ) (R : Quaternion ℝ) : Prop where
  super : kw.supertranslation = none
  spacetime : kw.spacetime_translation = none
  space : kw.space_translation = none
  boost : kw.boost_velocity = none
  time : (kw.time_translation = none ∧ tau = 0) ∨ kw.time_translation = some (some tau)
  rotation : (kw.frame_rotation = none ∧ R = 1) ∨
    ∃ q : Quaternion ℝ, kw.frame_rotation = some [q.re, q.imI, q.imJ, q.imK] ∧ 3e-16 ≤ √(Quaternion.normSq q) ∧ R = (√(Quaternion.normSq q))⁻¹ • q

/-- The numbers of points that are used: the given ones, or two more than needed for `w`. -/
def points (given : Option Int) (ellMax : Int) : Int := given.getD (2 * (ellMax + 1) + 1)

/-- `v` has the times `t - tau` and the modes of `w` with respect to the rotated basis, as far as both have them, and otherwise zero. -/
def Transformed (v w : WModes) (tau : ℝ) (R : Quaternion ℝ) : Prop :=
  v.t = w.t.map (· - tau) ∧ v.data.length = w.data.length ∧ ∀ i, i < w.data.length → ∀ ell m, v.ellMin ≤ ell → ell ≤ v.ellMax → -ell ≤ m → m ≤ ell →
    mode v i ell m = if w.ellMin ≤ ell ∧ ell ≤ w.ellMax then Verif.Spec.Rotation.rot ell R (mode w i ell) m else 0

/-- The modes of one row, zero where there are none. -/
def rowModes (w : WModes) (row : Row ℂ) : Int → Int → ℂ := fun ell m => if w.ellMin ≤ ell then row (lmIndex ell m w.ellMin) else 0

/-- The direction to which a rotor takes the z axis. -/
noncomputable def dir (R : Quaternion ℝ) : Fin 3 → ℝ := AbdTransform.rotateVec R ![0, 0, 1]

/-- The modes of a supertranslation. -/
def superModes (row : Row ℂ) : Int → Int → ℂ := fun ell m => row (lmIndex ell m 0)

/-- What a supertranslation adds to a field of the given type (before the conformal factor): `-2 ð̄ð̄α` for `h`, `-ððα` for `sigma`. -/
noncomputable def shift (dt L : Int) (alpha : Int → Int → ℂ) (R : Quaternion ℝ) : ℂ :=
  if dt = Weights.h then -expansion (-2) L (fun ell m => 2 * Charges.ethbarGHP (-1) (Charges.ethbarGHP 0 alpha) ell m) R
  else if dt = Weights.sigma then -expansion 2 L (Charges.ethGHP 1 (Charges.ethGHP 0 alpha)) R
  else 0

/-- `ðu'/k = (u - α) γ k ð(v·r) - ðα` in the direction of `R`; `V` are the modes of `v·r`, `A` those of `α`. -/
noncomputable def ethTime (g k u alpha : ℝ) (V : Int → Int → ℂ) (L : Int) (A : Int → Int → ℂ) (R : Quaternion ℝ) : ℂ :=
  ((u - alpha) * g * k : ℝ) * expansion 1 1 (Charges.ethGHP 0 V) R - expansion 1 L (Charges.ethGHP 0 A) R

/-- ... in the convention with a further factor `1/√2`. -/
noncomputable def weylE (g k u alpha : ℝ) (V : Int → Int → ℂ) (L : Int) (A : Int → Int → ℂ) (R : Quaternion ℝ) : ℂ := ethTime g k u alpha V L A R / (√2 : ℝ)

/-- The value of the Weyl component `psi_n` before the conformal factor, from those of higher index: `Σ C(4-n, j) e^j psi_(n+j)`.  `W m` has the modes of `psi_m`, and `l` is the number of the time. -/
noncomputable def weylSum (W : Nat → WModes) (n l : Nat) (e : ℂ) (R : Quaternion ℝ) : ℂ :=
  ∑ j ∈ Finset.range (5 - n), (Nat.choose (4 - n) j : ℂ) * e ^ j * expansion (2 - (n + j : Nat)) (W (n + j)).ellMax (rowModes (W (n + j)) ((W (n + j)).data.getD l fun _ => 0)) R

end Verif.GridModes.Spec
