import Verif.Py.Basic
import Mathlib.Data.Complex.Basic

/-!
# Model of `_Extrapolate` (`scri/extrapolation.py` lines 1239-1443)

Numbers are exact.  A waveform is its numbers of times and modes, its data as a function of time and mode, its
data type and the rest of what it stores (`info`).
-/

namespace Verif.Extrapolate

/-- A finite-radius waveform.  `psi01` says whether its data type is `psi1` or `psi0`. -/
structure Wave (I : Type) where
  nTimes : Nat
  nModes : Nat
  data : Nat → Nat → ℂ
  psi01 : Bool
  info : I

/-- `polyfit(OneOverRadii, data, N)` (numpy) for one column of data, given the pairs of abscissa and datum: the coefficients
in increasing order. -/
abbrev Fit : Type := List (ℝ × ℂ) → (N : Nat) → Fin (N + 1) → ℂ

/-- The checks of waveform `i_W` in the loop of lines 1297-1322.  The message of the first two is formatted from a string with
the field `{i_W}`, which is not supplied, so that they raise `KeyError`. -/
def checkOne {I : Type} (nTimes nModes : Nat) (w : Wave I) (r : List ℝ) : Py Unit :=
  if w.nTimes ≠ nTimes then .error .keyError
  else if w.nModes ≠ nModes then .error .keyError
  else if r.length ≠ nTimes then .error .valueError
  else .ok ()

/-- The loop, over the waveforms from the second on. -/
def checkRest {I : Type} (nTimes nModes : Nat) : List (Wave I) → List (List ℝ) → Py Unit
  | w :: ws, r :: rs => do checkOne nTimes nModes w r; checkRest nTimes nModes ws rs
  | _, _ => .ok ()

/-- `1.0 / Radii[i_W][i_t]` for all `i_W` (line 1367).  Radii are not zero. -/
noncomputable def oneOverRadii (radii : List (List ℝ)) (it : Nat) : Py (List ℝ) :=
  radii.mapM fun r => do let x ← pyGet r (it : Int); pure (1 / x)

/-- The loop over times (lines 1363-1434), up to the fits: the abscissas for every time.
With `Omegas`, `FiniteRadiusWaveforms[0].LM(i_m)` calls an array.  If insignificant radii are to be excluded, `Re` is read before
it is set. -/
noncomputable def timeLoop (nTimes nModes : Nat) (radii : List (List ℝ)) (useOmegas exclude : Bool) : Py (List (List ℝ)) :=
  (List.range nTimes).mapM fun it =>
    if useOmegas then (if nModes = 0 then .ok [] else .error .typeError)
    else do
      let xs ← oneOverRadii radii it
      if exclude then .error .unboundLocal else pure xs

/-- Nothing is fitted if all orders are negative (lines 1357-1358). -/
noncomputable def abscissas (maxN : Int) (nTimes nModes : Nat) (radii : List (List ℝ)) (useOmegas exclude : Bool) : Py (List (List ℝ)) :=
  if maxN < 0 then .ok [] else timeLoop nTimes nModes radii useOmegas exclude

/-- One element of the result: a copy of a finite-radius waveform for negative `N` (lines 1335-1337), the fitted constant
terms with everything else from the last waveform otherwise (lines 1338-1356, 1396-1403, 1436-1439). -/
noncomputable def result {I : Type} (polyfit : Fit) (Ws : List (Wave I)) (last : Wave I) (nTimes nModes : Nat) (xs : List (List ℝ)) (N : Int) : Py (Wave I) :=
  if N < 0 then pyGet Ws ((Ws.length : Int) + N)
  else .ok ⟨nTimes, nModes, fun it im => polyfit ((xs.getD it []).zip (Ws.map fun w => w.data it im)) N.toNat 0, last.psi01, last.info⟩

/-- `_Extrapolate(FiniteRadiusWaveforms, Radii, ExtrapolationOrders, Omegas, NoiseFloor)` (lines 1239-1443). -/
noncomputable def extrapolate {I : Type} (polyfit : Fit) (Ws : List (Wave I)) (radii : List (List ℝ)) (orders : List Int)
    (omegas : List ℝ) (noiseFloor : Bool) : Py (List (Wave I)) :=
  match orders.max?, orders.min?, Ws.head?, Ws.getLast? with
  | some maxN, some minN, some first, some last =>
    let useOmegas := decide (omegas.length ≠ 0)
    if (minN.natAbs : Int) > Ws.length then .error .valueError
    else if maxN > 0 ∧ maxN ≥ Ws.length then .error .valueError
    else if radii.length ≠ Ws.length then .error .valueError
    else if useOmegas ∧ omegas.length ≠ first.nTimes then .error .valueError
    else do
      checkRest first.nTimes first.nModes Ws.tail radii.tail
      let xs ← abscissas maxN first.nTimes first.nModes radii useOmegas (last.psi01 && noiseFloor)
      orders.mapM (result polyfit Ws last first.nTimes first.nModes xs)
  | none, _, _, _ => .error .valueError
  | _, none, _, _ => .error .valueError
  | _, _, _, _ => .error .indexError

end Verif.Extrapolate
