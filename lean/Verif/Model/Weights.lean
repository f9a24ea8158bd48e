import Verif.Py.Basic
import Mathlib.Data.Real.Basic

/-!
# Data types, their weights, and the conversion of units

`scri/__init__.py` lines 60-86; `scri/waveform_base.py` lines 440-467 (weights), 486-516
(`descriptor_string`), 969-1044 (`SI_units`); `scri/SpEC/file_io/__init__.py` lines 421-450
(`make_variable_dimensionless`); `scri/extrapolation.py` lines 342-416 (scaling on reading).

Physical constants are parameters, arithmetic is exact.
-/

namespace Verif.Weights

/-! `DataType = [UnknownDataType, psi0, ..., psin] = range(11)` (line 80) -/
def UnknownDataType : Int := 0
def psi0 : Int := 1
def psi1 : Int := 2
def psi2 : Int := 3
def psi3 : Int := 4
def psi4 : Int := 5
def sigma : Int := 6
def h : Int := 7
def hdot : Int := 8
def news : Int := 9
def psin : Int := 10

/-- `sys.maxsize` -/
def maxsize : Int := 2 ^ 63 - 1

/-- lines 82-85 -/
def SpinWeights : List Int := [maxsize, 2, 1, 0, -1, -2, 2, -2, -2, -2, maxsize]
def ConformalWeights : List Int := [maxsize, 2, 1, 0, -1, -2, 1, 0, -1, -1, -3]
def RScaling : List Int := [maxsize, 5, 4, 3, 2, 1, 2, 1, 1, 1, 0]
def MScaling : List Int := [maxsize, 2, 2, 2, 2, 2, 0, 0, 1, 1, 2]

/-- line 81 -/
def DataNames : List String :=
  ["UnknownDataType", "Psi0", "Psi1", "Psi2", "Psi3", "Psi4", "sigma", "h", "hdot", "news", "psin"]

/-- `spin_weight` (`waveform_base.py` lines 441-443) -/
def spinWeight (dt : Int) : Py Int := pyGet SpinWeights dt

/-- `conformal_weight` (lines 445-447) -/
def conformalWeight (dt : Int) (rOut : Bool) : Py Int := do
  let c ← pyGet ConformalWeights dt
  let r ← if rOut then (do let x ← pyGet RScaling dt; pure (-x)) else pure 0
  pure (c + r)

/-- `gamma_weight` (lines 449-460) -/
def gammaWeight (dt : Int) (rOut mOut : Bool) : Py Int := do
  let a ← if mOut then pyGet MScaling dt else pure 0
  let b ← if rOut && mOut then (do let x ← pyGet RScaling dt; pure (-x)) else pure 0
  pure (a + b)

/-- The fields of a waveform that the unit conversions use; `data` is flat. -/
structure W where
  t : List ℝ
  data : List ℝ
  dataType : Int
  rOut : Bool
  mOut : Bool

/-- `SI_units(M, R)` (lines 969-1044).  `Msun`, `c`, `pc` are `m_sun_in_meters`, `speed_of_light`,
`parsec_in_meters`.  Each complex number of `data` is two real ones here; the factor is real. -/
noncomputable def SI_units (Msun c pc : ℝ) (M R : ℝ) (w : W) : Py W := do
  let MinMeters := M * Msun
  let MinSeconds := MinMeters / c
  let RinMeters := R * (1000000 * pc)
  let RoverM := RinMeters / MinMeters
  let r ← pyGet RScaling w.dataType
  let m ← pyGet MScaling w.dataType
  let amplitude :=
    if w.rOut then
      if w.mOut then RoverM ^ (-r) * MinMeters ^ (-m) else RoverM ^ (-r)
    else
      if w.mOut then MinMeters ^ (-m) else 1
  pure { t := if w.mOut then w.t.map fun x => MinSeconds * x else w.t
         data := w.data.map fun x => amplitude * x
         dataType := w.dataType, rOut := false, mOut := false }

/-- `unit_scale_factor` in `make_variable_dimensionless` (`file_io/__init__.py` lines 439-446). -/
noncomputable def unitScale (dt : Int) (chMass : ℝ) : Py ℝ :=
  if dt ∈ [psi4, psi3, psi2, psi1, psi0] then .ok (chMass ^ (dt - 4))
  else if dt = h then .ok (1 / chMass)
  else if dt = hdot then .ok 1
  else .error .valueError

/-- `make_variable_dimensionless(WM, ch_mass)` (lines 421-450). -/
noncomputable def makeDimensionless (chMass : ℝ) (w : W) : Py W :=
  if w.mOut then .ok w
  else do
    let f ← unitScale w.dataType chMass
    pure { w with t := w.t.map fun x => x / chMass, data := w.data.map fun x => x * f, mOut := true }

/-- The unit scale factor and the power of the radius in `read_finite_radius_waveform`
(`extrapolation.py` lines 377-402). -/
noncomputable def finiteRadiusScale (dt : Int) (chMass : ℝ) : Py (ℝ × Int) :=
  if dt = h then .ok (1 / chMass, 1)
  else if dt = hdot then .ok (1, 1)
  else if dt = psi4 then .ok (chMass, 1)
  else if dt = psi3 then .ok (1, 2)
  else if dt = psi2 then .ok (1 / chMass, 3)
  else if dt = psi1 then .ok (1 / chMass ^ 2, 4)
  else if dt = psi0 then .ok (1 / chMass ^ 3, 5)
  else .error .valueError

/-- `str(n)` for an integer -/
def pyStr (n : Int) : String := toString n

/-- `descriptor_string` (`waveform_base.py` lines 486-516). -/
def descriptorString (dt : Int) (rOut mOut : Bool) : Py String := do
  let name ← pyGet DataNames dt
  if dt = UnknownDataType then pure name
  else do
    let r ← pyGet RScaling dt
    let m ← pyGet MScaling dt
    let d := if rOut then (if r = 1 then "r" else if r > 1 then "r" ++ pyStr r else "") else ""
    if mOut then
      let e := m - (if rOut then r else 0)
      if e < -1 then pure (d ++ name ++ "OverM" ++ pyStr (-e))
      else if e = -1 then pure (d ++ name ++ "OverM")
      else if e = 0 then pure (d ++ name)
      else if e = 1 then pure (d ++ "M" ++ name)
      else pure (d ++ "M" ++ pyStr e ++ name)
    else pure (d ++ name)

end Verif.Weights
