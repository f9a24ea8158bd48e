import Verif.Py.Basic
import Verif.Model.Modes
import Mathlib.Data.Complex.Basic
import Mathlib.Algebra.Quaternion

/-!
# Model of the loops of `scri/asymptotic_bondi_data/map_to_superrest_frame.py`

What the loops compute with (charges, transformations of the data, products of BMS transformations) is a parameter.
-/

namespace Verif.SuperrestLoop

open Verif Verif.Modes

/-- An error as a float: a real number, infinity, or nan. -/
inductive Err where
  | fin (x : ℝ)
  | inf
  | nan

/-- `a < b` for floats. -/
def Err.lt : Err → Err → Prop
  | .fin x, .fin y => x < y
  | .fin _, .inf => True
  | _, _ => False

noncomputable instance (a b : Err) : Decidable (a.lt b) := Classical.propDecidable _

/-- `min(l)`: the item is replaced when a later one is less. -/
noncomputable def pyMin : List Err → Err
  | [] => .inf
  | a :: l => l.foldl (fun c e => if e.lt c then e else c) a

/-- What a loop keeps. -/
structure St (S B : Type) where
  itr : Nat
  err : Err
  errs : List Err
  cur : S
  best : B

/-- The loops `while itr < N_itr_max and not rel_err < rel_err_tol` (lines 260-306, 370-396, 498-525 and 530-555): `step` computes the new state and its error, `out` is what is copied when the error is less than all before it.  The first
argument bounds the number of passes; `run` gives it the number of passes that the condition of the loop allows. -/
noncomputable def iterate {S B : Type} (step : Nat → S → Py (S × Err)) (out : S → B) (N : Nat) (tol : Err) : Nat → St S B → Py (St S B)
  | 0, st => .ok st
  | fuel + 1, st =>
    if st.itr < N ∧ ¬ st.err.lt tol then do
      let (s, e) ← step st.itr st.cur
      iterate step out N tol fuel { itr := st.itr + 1, err := e, errs := st.errs ++ [e], cur := s, best := if e.lt (pyMin st.errs) then out s else st.best }
    else .ok st

/-- A loop with its initial values (lines 257-259, 367-369, 495-497 and 527-529).  A negative `N_itr_max` is like 0. -/
noncomputable def run {S B : Type} (step : Nat → S → Py (S × Err)) (out : S → B) (N : Int) (tol : Err) (s0 : S) (b0 : B) : Py (B × List Err) := do
  let st ← iterate step out N.toNat tol N.toNat { itr := 0, err := .inf, errs := [.inf], cur := s0, best := b0 }
  pure (st.best, st.errs)

/-- The parts of a BMS transformation that the loops change; the supertranslation as an array of modes. -/
structure Tr where
  super : Row ℂ
  rotation : Quaternion ℝ
  boost : Fin 3 → ℝ

/-- `BMSTransformation()`. -/
def Tr.one : Tr := { super := fun _ => 0, rotation := 1, boost := 0 }

/-- What the loops call: `charge` of the data (for the center of mass the charge `G`, for the rotations the spin or the angular velocity), the transformation found from it, the product
`(new * old).reorder([...])`, the transformation of the data, and the error of a charge. -/
structure Env (A G : Type) where
  charge : A → Py G
  fromCharge : G → Py Tr
  compose : Tr → Tr → Py Tr
  transform : A → Tr → Py A
  error : A → G → Err

/-- Lines 371-373, 499-503 and 531-534: in the first pass the charge is that of the data; afterwards it is the one that the pass before has computed. -/
def present {A G : Type} (env : Env A G) (abd : A) (itr : Nat) (old : Option G) : Py G :=
  if itr = 0 then env.charge abd
  else match old with
    | some g => .ok g
    | none => .error .unboundLocal

/-- The body of a loop (lines 371-391, 499-520 and 531-550). -/
def pass {A G : Type} (env : Env A G) (clean : Tr → Tr) (abd : A) (itr : Nat) (s : Tr × Option G) : Py ((Tr × Option G) × Err) := do
  let g ← present env abd itr s.2
  let new ← env.fromCharge g
  let T ← env.compose new s.1
  let abd' ← env.transform abd (clean T)
  let g' ← env.charge abd'
  pure ((clean T, some g'), env.error abd' g')

/-- Lines 380-381: `supertranslation[4:] *= 0`, `frame_rotation = 1`. -/
noncomputable def cleanCom (T : Tr) : Tr := { T with super := fun i => if 4 ≤ i then 0 else T.super i, rotation := 1 }

/-- Lines 509-510 and 540-541: `supertranslation *= 0`, `boost_velocity *= 0`. -/
def cleanRotation (T : Tr) : Tr := { T with super := fun _ => 0, boost := 0 }

/-- `com_transformation_to_map_to_superrest_frame` (lines 345-404). -/
noncomputable def com {A G : Type} (env : Env A G) (abd : A) (N : Int) (tol : Err) : Py (Tr × List Err) := run (pass env cleanCom abd) Prod.fst N tol (Tr.one, none) Tr.one

/-- `rotation_to_map_to_superrest_frame` (lines 441-565), both loops: with a target the charge is the angular velocity, without it is the spin.  (The charge includes its times; `transform` uses the rotation only.) -/
noncomputable def rotation {A G : Type} (env : Env A G) (abd : A) (N : Int) (tol : Err) : Py (Tr × List Err) := run (pass env cleanRotation abd) Prod.fst N tol (Tr.one, none) Tr.one

/-- `supertranslation_to_map_to_superrest_frame` (lines 227-319).  The state `S` holds the supertranslation on the grid and the interpolated functions; `modes` is `map2salm`. -/
noncomputable def supertranslation {S Grid : Type} (step : Nat → S → Py (S × Err)) (alpha : S → Grid) (modes : Grid → Row ℂ) (zero : Grid) (s0 : S) (N : Int) (tol : Err) : Py (Tr × List Err) := do
  let (best, errs) ← run step alpha N tol s0 zero
  let a := modes best
  pure ({ Tr.one with super := fun i => if 0 ≤ i ∧ i < 4 then 0 else a i }, errs)

/-! ## The outer loop -/

/-- The names in `order` (lines 820, 829, 837 and 844); `other` is any other name. -/
inductive Step where
  | supertranslation
  | rotation
  | com
  | timePhase
  | other
  deriving DecidableEq

/-- The value of `rel_err` (lines 798, 850 and 880): the list at the start, a tuple from `rel_err_for_abd_in_superrest`, a number from `align2d`. -/
inductive Rel where
  | start
  | tuple (com rotation supertranslation : Err)
  | num (e : Err)

/-- Sums of errors that are not negative. -/
noncomputable def Err.add : Err → Err → Err
  | .fin x, .fin y => .fin (x + y)
  | .nan, _ => .nan
  | _, .nan => .nan
  | _, _ => .inf

/-- Division by 3. -/
noncomputable def Err.third : Err → Err
  | .fin x => .fin (x / 3)
  | e => e

/-- `np.mean(rel_err)` (line 882). -/
noncomputable def Rel.mean : Rel → Err
  | .start => .inf
  | .tuple a b c => ((a.add b).add c).third
  | .num e => e

/-- What `map_to_superrest_frame` calls; `B` are BMS transformations. -/
structure Outer (A B : Type) where
  /-- the three solvers -/
  solve : Step → A → Py B
  /-- `align2d` and the transformation made from its result -/
  align : A → Py (Err × B)
  /-- `(new * old).reorder([...])` -/
  compose : B → B → Py B
  transform : A → B → Py A
  /-- `rel_err_for_abd_in_superrest` -/
  errors : A → Py (Err × Err × Err)

/-- The variables of the loop over `order`; `new` may be unbound. -/
structure Inner (A B : Type) where
  new : Option B
  bms : B
  abd : A
  rel : Rel

/-- Lines 820-864: which transformation is found.  `time_phase` without a target, and names that are not known, leave `new_transformation` as it is. -/
def find {A B : Type} (o : Outer A B) (target : Bool) (v : Inner A B) (s : Step) : Py (Option B × Rel) :=
  match s with
  | .timePhase =>
    if target then do
      let (e, T) ← o.align v.abd
      pure (some T, .num e)
    else .ok (v.new, v.rel)
  | .other => .ok (v.new, v.rel)
  | s => do
    let T ← o.solve s v.abd
    pure (some T, v.rel)

/-- Lines 819-874: one name of `order`. -/
def inner {A B : Type} (o : Outer A B) (target : Bool) (interp : A) (v : Inner A B) (s : Step) : Py (Inner A B) := do
  let (new, rel) ← find o target v s
  match new with
  | none => .error .unboundLocal
  | some T => do
    let bms ← o.compose T v.bms
    let abd ← o.transform interp bms
    pure { new := some T, bms := bms, abd := abd, rel := rel }

/-- Lines 876-880: the error after the loop over `order`. -/
def relAfter {A B : Type} (o : Outer A B) (target : Bool) (order : List Step) (v : Inner A B) : Py Rel :=
  if target then
    match order.getLast? with
    | none => .error .indexError
    | some .timePhase => .ok v.rel
    | some _ => do
      let (a, b, c) ← o.errors v.abd
      pure (.tuple a b c)
  else do
    let (a, b, c) ← o.errors v.abd
    pure (.tuple a b c)

/-- The variables of the outer loop. -/
structure OSt (A B : Type) where
  itr : Nat
  v : Inner A B
  rels : List Rel
  best : Option B
  bestRel : Rel

/-- Lines 802-808: the test for the tolerances; it is made only for a tuple. -/
def converged (tols : Err × Err × Err) : Rel → Prop
  | .tuple a b c => a.lt tols.1 ∧ b.lt tols.2.1 ∧ c.lt tols.2.2
  | _ => False

noncomputable instance (tols : Err × Err × Err) (r : Rel) : Decidable (converged tols r) := Classical.propDecidable _

/-- Lines 812-817: the transformation of the data in the first pass. -/
def firstPass {A B : Type} (o : Outer A B) (interp : A) (st : OSt A B) : Py (Inner A B) :=
  if st.itr = 0 then do
    let abd ← o.transform interp st.v.bms
    pure { st.v with abd := abd }
  else .ok st.v

/-- Lines 801-887: the outer loop. -/
noncomputable def outer {A B : Type} (o : Outer A B) (target : Bool) (order : List Step) (N : Nat) (tols : Err × Err × Err) (interp : A) : Nat → OSt A B → Py (OSt A B)
  | 0, st => .ok st
  | fuel + 1, st =>
    if st.itr < N ∧ ¬ converged tols st.v.rel then do
      let v ← firstPass o interp st
      let v ← order.foldlM (inner o target interp) v
      let rel ← relAfter o target order v
      let better := rel.mean.lt (pyMin (st.rels.map Rel.mean))
      outer o target order N tols interp fuel
        { itr := st.itr + 1, v := { v with rel := rel }, rels := st.rels ++ [rel], best := if better then some v.bms else st.best, bestRel := if better then rel else st.bestRel }
    else .ok st

/-- `map_to_superrest_frame` (lines 790-907) after the interpolation: `b0` is the time translation, `back` its inverse. -/
noncomputable def superrest {A B : Type} (o : Outer A B) (target : Bool) (order : List Step) (N : Int) (tols : Err × Err × Err) (abd interp : A) (b0 back : B) : Py (A × B × Rel) := do
  let st ← outer o target order N.toNat tols interp N.toNat { itr := 0, v := { new := none, bms := b0, abd := interp, rel := .start }, rels := [.start], best := none, bestRel := .start }
  match st.best with
  | none => .error .unboundLocal
  | some b => do
    let b ← o.compose back b
    let abd' ← o.transform abd b
    pure (abd', b, st.bestRel)

end Verif.SuperrestLoop
