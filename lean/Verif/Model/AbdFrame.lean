import Verif.Model.Moreschi

/-!
# Model of `scri/asymptotic_bondi_data/map_to_abd_frame.py`

What the function calls (transformations of the data, `map_to_superrest_frame`, `align2d`, products of BMS transformations) is a parameter.  Arithmetic is exact.
-/

namespace Verif.AbdFrame
open Verif Verif.SuperrestLoop

/-- `np.argmin(l)`: the number of the first of the smallest. -/
noncomputable def argminFrom : List ℝ → Nat → Nat → ℝ → Nat
  | [], _, best, _ => best
  | x :: l, i, best, v => if x < v then argminFrom l (i + 1) i x else argminFrom l (i + 1) best v

/-- `np.argmin(l)`; `ValueError` for an empty array. -/
noncomputable def argmin : List ℝ → Py Nat
  | [] => .error .valueError
  | x :: l => .ok (argminFrom l 1 0 x)

/-- `np.argmin(abs(t - x))` -/
noncomputable def nearest (t : List ℝ) (x : ℝ) : Py Nat := argmin (t.map fun u => |u - x|)

/-- The time translation with which the function starts (lines 151-161): the time at which the energy is nearest to that of the target at `t_0`, minus `t_0`.  An index beyond the end is an `IndexError`. -/
noncomputable def startTime (t energy tTarget eTarget : List ℝ) (t0 : ℝ) : Py ℝ := do
  let j ← nearest tTarget t0
  match eTarget[j]? with
  | none => .error .indexError
  | some e => do
    let i ← nearest energy e
    match t[i]? with
    | none => .error .indexError
    | some x => .ok (x - t0)

/-- `t[np.argmin(abs(t - a)) : np.argmin(abs(t - b)) + 1]` (lines 22 and 167-171). -/
noncomputable def window (t : List ℝ) (a b : ℝ) : Py (List ℝ) := do
  let i ← nearest t a
  let j ← nearest t b
  pure ((t.drop i).take (j + 1 - i))

/-! ## The error between two data -/

/-- One time series: the modes at each time. -/
abbrev Series := List (List ℂ)

/-- `norm()` of the modes at one time. -/
noncomputable def norm (row : List ℂ) : ℝ := √((row.map fun z => ‖z‖ ^ 2).sum)

/-- Lines 36-38: one term.  `integral` is the last item of `indefinite_integral`; `x or y` is `y` if `x` is 0. -/
noncomputable def term (integral : List ℝ → List ℝ → ℝ) (t : List ℝ) (a b : Series) : Err :=
  let diff := List.zipWith (List.zipWith (· - ·)) a b
  let n := integral (a.map norm) t
  Moreschi.quot (integral (diff.map norm) t) (if n = 0 then t.getLastD 0 - t.headD 0 else n)

/-- Division by 6. -/
noncomputable def sixth : Err → Err
  | .fin x => .fin (x / 6)
  | e => e

/-- `rel_err_between_abds` (lines 21-56) after the interpolation: `a` and `b` are sigma, psi0, ..., psi4 at the times `t`. -/
noncomputable def relErr (integral : List ℝ → List ℝ → ℝ) (t : List ℝ) (a b : Fin 6 → Series) : Err :=
  sixth ((List.finRange 6).foldl (fun e k => e.add (term integral t (a k) (b k))) (.fin 0))

/-! ## The loop -/

/-- What `map_to_abd_frame` calls. -/
structure Calls (A B : Type) where
  transform : A → B → Py A
  /-- the data and the transformation that `map_to_superrest_frame` returns -/
  superrest : A → Py (A × B)
  /-- `align2d` of the strains of two data: the error, the time and the phase -/
  align : A → A → Py (Err × ℝ × ℝ)
  /-- the transformation with this time translation and this rotation about z (lines 228-231 and 264-267) -/
  timePhase : ℝ → ℝ → B
  mul : B → B → B
  inv : B → B
  reorder : B → Py B
  /-- `rel_err_between_abds` -/
  relErr : A → A → Py Err

/-- The variables of the loop. -/
structure St (A B : Type) where
  itr : Nat
  bms : B
  prime : Option A
  errs : List Err
  best : Option (B × Err)

variable {A B : Type}

/-- Lines 192-197: in the first pass the data are transformed with the start. -/
def present (c : Calls A B) (interp : A) (st : St A B) : Py A :=
  if st.itr = 0 then c.transform interp st.bms
  else match st.prime with
    | some a => .ok a
    | none => .error .unboundLocal

/-- Lines 211-233. -/
def firstAlign (c : Calls A B) (fix : Bool) (one : B) (a S : A) : Py B :=
  if fix then do
    let (_, δt, δφ) ← c.align a S
    pure (c.timePhase δt δφ)
  else .ok one

/-- Lines 247-280: the second alignment, or the error without it. -/
def secondAlign (c : Calls A B) (fix : Bool) (interp target : A) (bms : B) (prime : A) : Py (B × A × Err) :=
  if fix then do
    let (e, δt, δφ) ← c.align prime target
    let bms ← c.reorder (c.mul (c.timePhase δt δφ) bms)
    let prime ← c.transform interp bms
    pure (bms, prime, e)
  else do
    let e ← c.relErr target prime
    pure (bms, prime, e)

/-- Lines 192-285: one pass, except for the choice of the best. -/
def pass (c : Calls A B) (fix : Bool) (one : B) (interp target S : A) (T2 : B) (st : St A B) : Py (B × A × Err) := do
  let a ← present c interp st
  let (s, T1) ← c.superrest a
  let tp ← firstAlign c fix one s S
  let bms ← c.reorder (c.mul (c.inv T2) (c.mul tp (c.mul T1 st.bms)))
  let prime ← c.transform interp bms
  secondAlign c fix interp target bms prime

/-- Lines 191-287. -/
noncomputable def loop (c : Calls A B) (fix : Bool) (one : B) (interp target S : A) (T2 : B) : Nat → St A B → Py (St A B)
  | 0, st => .ok st
  | n + 1, st => do
    let (bms, prime, e) ← pass c fix one interp target S T2 st
    loop c fix one interp target S T2 n { itr := st.itr + 1, bms := bms, prime := some prime, errs := st.errs ++ [e], best := if e.lt (pyMin st.errs) then some (bms, e) else st.best }

/-- `map_to_abd_frame` (lines 144-301): `abd` are the data, `interp` the data interpolated to the window, `start` the time translation of lines 150-165 and `N` is `N_itr_maxes["abd"]`. -/
noncomputable def mapToAbd (c : Calls A B) (fix : Bool) (one : B) (abd interp target : A) (start : B) (N : Int) : Py (A × B × Err) := do
  let b ← c.reorder (c.mul start one)
  let (S, T2) ← c.superrest target
  let st ← loop c fix one interp target S T2 N.toNat { itr := 0, bms := b, prime := none, errs := [.inf], best := none }
  match st.best with
  | none => .error .unboundLocal
  | some (T, e) => do
    let abd' ← c.transform abd T
    pure (abd', T, e)

end Verif.AbdFrame
