import Verif.Py.Basic
import Mathlib.Data.Real.Basic
import Mathlib.Algebra.Order.Field.Basic

/-!
# Model of the motion of the center of mass

`com_motion` and `estimate_avg_com_motion` (`scri/SpEC/com_motion.py` lines 19-237, without the plots).  Arithmetic is exact.  Columns of the data sets are lists.
-/

namespace Verif.ComMotion

open Verif

abbrev Vec := Fin 3 → ℝ

/-- The data sets of `Horizons.h5` that are used: columns of `AhA.dir/ChristodoulouMass.dat`, `AhA.dir/CoordCenterInertial.dat` and the same for `AhB.dir`. -/
structure Horizons where
  t : List ℝ
  m_A : List ℝ
  x_A : List Vec
  m_B : List ℝ
  x_B : List Vec

/-- The data sets of `Matter.h5`, if they are in the file: times and places. -/
structure Matter where
  ns1 : Option (List ℝ × List Vec)
  ns2 : Option (List ℝ × List Vec)

/-- Broadcasting of a mass to `n` times: an array with one item is repeated. -/
def broadcast (n : Nat) (m : List ℝ) : Py (List ℝ) :=
  if m.length = n then .ok m
  else match m with
    | [a] => .ok (List.replicate n a)
    | _ => .error .valueError

/-- Lines 58 and 107: `(m_A x_A + m_B x_B) / m`. -/
noncomputable def weighted (a b : ℝ × Vec) : Vec := fun i => (a.1 * a.2 i + b.1 * b.2 i) / (a.1 + b.1)

/-- Lines 49-58: two black holes.  The masses that are passed are not used. -/
noncomputable def bbh (h : Horizons) : Py (List ℝ × List Vec) :=
  if h.m_A.length = h.t.length ∧ h.x_A.length = h.t.length ∧ h.m_B.length = h.t.length ∧ h.x_B.length = h.t.length then
    .ok (h.t, List.zipWith weighted (h.m_A.zip h.x_A) (h.m_B.zip h.x_B))
  else .error .valueError

/-- Lines 106-112: the center of mass and the units. -/
noncomputable def finish (t : List ℝ) (m_A : List ℝ) (x_A : List Vec) (m_B : List ℝ) (x_B : List Vec) : Py (List ℝ × List Vec) := do
  let m_A ← broadcast t.length m_A
  let m_B ← broadcast t.length m_B
  let m := List.zipWith (· + ·) m_A m_B
  let com := List.zipWith weighted (m_A.zip x_A) (m_B.zip x_B)
  pure (List.zipWith (· / ·) t m, List.zipWith (fun c m i => c i / m) com m)

/-- Lines 63-74: two neutron stars.  `(t != t_check).any()` for arrays of different lengths is an error (`bool` has no `any`). -/
noncomputable def nsns (a b : List ℝ × List Vec) (m_A m_B : Option ℝ) : Py (List ℝ × List Vec) :=
  if a.1.length ≠ b.1.length then .error .attributeError
  else if a.1 ≠ b.1 then .error .valueError
  else match m_A, m_B with
    | some m_A, some m_B => finish a.1 [m_A] a.2 [m_B] b.2
    | _, _ => .error .valueError

/-- Lines 77-81: the mass of the black hole. -/
def bhMass (h : Horizons) : Option ℝ → List ℝ
  | none => h.m_A
  | some m => [m]

/-- Lines 77-104: a black hole and a neutron star. -/
noncomputable def bhns (h : Horizons) (b : List ℝ × List Vec) (m_A m_B : Option ℝ) : Py (List ℝ × List Vec) :=
  let n := b.1.length
  let m := bhMass h m_A
  if h.t.length < n then .error .valueError
  else
    let m := if n < h.t.length ∧ m.length = h.t.length then m.take n else m
    let t := h.t.take n
    let x := h.x_A.take n
    if t ≠ b.1 then .error .valueError
    else match m_B with
      | none => .error .valueError
      | some m_B => finish t m x [m_B] b.2

/-- `com_motion` (lines 19-120). -/
noncomputable def comMotion (h : Horizons) (matter : Option Matter) (m_A m_B : Option ℝ) : Py (List ℝ × List Vec) :=
  match matter with
  | none => bbh h
  | some m =>
    match m.ns1, m.ns2 with
    | some a, some b => nsns a b m_A m_B
    | some b, none => bhns h b m_A m_B
    | none, _ => .error .other

/-- `np.argmin` (external): the position of the first of the smallest items. -/
noncomputable def argmin : List ℝ → Nat
  | [] => 0
  | [_] => 0
  | a :: b :: l => let k := argmin (b :: l); if (b :: l).getD k 0 < a then k + 1 else 0

/-- Simpson's rule for three points with arbitrary distances, as in `scipy.integrate.simps` (external). -/
noncomputable def panel (p0 p1 p2 : ℝ × ℝ) : ℝ :=
  let h0 := p1.1 - p0.1
  let h1 := p2.1 - p1.1
  (h0 + h1) / 6 * (p0.2 * (2 - h1 / h0) + p1.2 * ((h0 + h1) ^ 2 / (h0 * h1)) + p2.2 * (2 - h0 / h1))

/-- The composite rule for an odd number of points. -/
noncomputable def basicSimpson : List (ℝ × ℝ) → ℝ
  | p0 :: p1 :: p2 :: l => panel p0 p1 p2 + basicSimpson (p2 :: l)
  | _ => 0

/-- The trapezoidal rule for the first interval. -/
noncomputable def firstTrapezoid : List (ℝ × ℝ) → ℝ
  | p0 :: p1 :: _ => (p1.1 - p0.1) * (p0.2 + p1.2) / 2
  | _ => 0

/-- The trapezoidal rule for the last interval. -/
noncomputable def lastTrapezoid (l : List (ℝ × ℝ)) : ℝ :=
  match l.reverse with
  | p1 :: p0 :: _ => (p1.1 - p0.1) * (p0.2 + p1.2) / 2
  | _ => 0

/-- `scipy.integrate.simps` (external, `even='avg'`). -/
noncomputable def simps (l : List (ℝ × ℝ)) : ℝ :=
  if l.length % 2 = 0 then ((basicSimpson l.dropLast + basicSimpson l.tail) + (lastTrapezoid l + firstTrapezoid l)) / 2 else basicSimpson l

/-- Lines 226-228: the fit with a velocity. -/
noncomputable def linearFit (C0 C1 t_i t_f : ℝ) : ℝ × ℝ :=
  (2 * (C0 * (2 * t_f ^ 3 - 2 * t_i ^ 3) + C1 * (-3 * t_f ^ 2 + 3 * t_i ^ 2)) / (t_f - t_i) ^ 4, 6 * (C0 * (-t_f - t_i) + 2 * C1) / (t_f - t_i) ^ 3)

/-- Lines 203-224: the fit with an acceleration. -/
noncomputable def accelFit (C0 C1 C2 t_i t_f : ℝ) : ℝ × ℝ × ℝ :=
  (3 * (C0 * (3 * t_f ^ 4 + 12 * t_f ^ 3 * t_i + 30 * t_f ^ 2 * t_i ^ 2 + 12 * t_f * t_i ^ 3 + 3 * t_i ^ 4) - 12 * C1 * (t_f + t_i) * (t_f ^ 2 + 3 * t_f * t_i + t_i ^ 2) +
      C2 * (10 * t_f ^ 2 + 40 * t_f * t_i + 10 * t_i ^ 2)) / (t_f - t_i) ^ 5,
    12 * (-3 * C0 * (t_f + t_i) * (t_f ^ 2 + 3 * t_f * t_i + t_i ^ 2) + C1 * (16 * t_f ^ 2 + 28 * t_f * t_i + 16 * t_i ^ 2) + C2 * (-15 * t_f - 15 * t_i)) / (t_f - t_i) ^ 5,
    60 * (C0 * (t_f ^ 2 + 4 * t_f * t_i + t_i ^ 2) + C1 * (-6 * t_f - 6 * t_i) + 6 * C2) / (t_f - t_i) ^ 5)

/-- Line 196: the times of the window. -/
noncomputable def windowTimes (t : List ℝ) (skipB skipE : ℝ) : ℝ × ℝ :=
  let first := t.getD 0 0
  let last := t.getD (t.length - 1) 0
  (first + (last - first) * skipB, last - (last - first) * skipE)

/-- Line 197: the nearest sample. -/
noncomputable def nearest (t : List ℝ) (s : ℝ) : Nat := argmin (t.map fun x => |x - s|)

/-- `a[i : j + 1]` for indices that are not negative. -/
def window {α : Type} (l : List α) (i j : Nat) : List α := (l.take (j + 1)).drop i

/-- `simps((t ** k * com)[i_i : i_f + 1], t[i_i : i_f + 1], axis=0)`, for one component (lines 200-203). -/
noncomputable def moment (k : Nat) (samples : List (ℝ × ℝ)) : ℝ := simps (samples.map fun p => (p.1, p.1 ^ k * p.2))

/-- `estimate_avg_com_motion` after line 192, for one component of the motion: `x_i`, `v_i` and `a_i`. -/
noncomputable def estimate (t com : List ℝ) (skipB skipE : ℝ) (fitAcceleration : Bool) : ℝ × ℝ × ℝ :=
  let (t_i, t_f) := windowTimes t skipB skipE
  let samples := window (t.zip com) (nearest t t_i) (nearest t t_f)
  if fitAcceleration then accelFit (moment 0 samples) (moment 1 samples) (moment 2 samples) t_i t_f
  else
    let (x, v) := linearFit (moment 0 samples) (moment 1 samples) t_i t_f
    (x, v, 0)

end Verif.ComMotion
