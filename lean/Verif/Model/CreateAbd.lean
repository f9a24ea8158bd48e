import Verif.Model.AbdModes
import Verif.Model.Monotonic
import Verif.Model.ComMotion

/-!
# Model of `create_abd_from_h5` (`scri/SpEC/file_io/__init__.py` lines 453-669), of the property `h` and of `interpolate` (`scri/asymptotic_bondi_data/__init__.py` lines 119-131, 186-201)

The waveforms have been read; what follows is what is done with them, in exact arithmetic.  The step to the superrest frame (lines 666-667) is not part of this model.
-/

namespace Verif.CreateAbd

open Verif Verif.Modes Verif.AbdModes Verif.GridModes

/-- `conversion_factor[convention]` (lines 619-623), in the order Ψ₀, …, Ψ₄, h; the convention is in lower case. -/
noncomputable def factors (convention : String) : Py (List ℝ) :=
  if convention = "moreschi-boyle" then .ok [1, 1, 1, 1, 1, 1]
  else if convention = "spec" then .ok [2, -√2, 1, -1 / √2, 0.5, 0.5]
  else .error .keyError

/-- Lines 591-596: `(WM_ref.t == WMs[i].t).all()`.  Arrays of different sizes, neither of which is 1, cannot be compared.  In the message of the exception `list(WMs.keys())[i]` is evaluated where `i` is a string, a
`TypeError`. -/
noncomputable def checkTimes (ref t : List ℝ) : Py Unit :=
  if ref.length = t.length then (if ref = t then .ok () else .error .typeError)
  else if t.length = 1 then (if ∀ x ∈ ref, x = t.getD 0 0 then .ok () else .error .typeError)
  else if ref.length = 1 then (if ∀ x ∈ t, x = ref.getD 0 0 then .ok () else .error .typeError)
  else .error .other

/-- `make_variable_dimensionless(WMs[i], ch_mass)` (lines 421-450, 600-601). -/
noncomputable def dimensionless (chMass : Option ℝ) (w : WModes) : Py WModes := match chMass with
  | none => .ok w
  | some M => if w.mOut then .ok w else do
      let f ← Weights.unitScale w.dataType M
      pure { w with t := w.t.map (· / M), data := w.data.map fun row => fun i => row i * (f : ℂ), mOut := true }

/-- Lines 604-605: `radius` is `none` for the other formats, `some none` if there is no radius. -/
def shiftTimes (radius : Option (Option ℝ)) (w : WModes) : Py WModes := match radius with
  | none => .ok w
  | some none => .error .typeError
  | some (some r) => .ok { w with t := w.t.map (· - r) }

/-- Indexing with an array of numbers (or with the corresponding mask). -/
def keep {α : Type} (idx : List Nat) (l : List α) : List α := idx.filterMap fun i => l[i]?

/-- Lines 607-609. -/
noncomputable def monotonic (w : WModes) : Py WModes := do
  let idx ← Monotonic.monotonicIndices w.t
  if w.data.length ≠ w.t.length then .error .indexError
  else pure { w with t := keep idx w.t, data := keep idx w.data }

/-- The loop of lines 598-609 for one waveform. -/
noncomputable def prepare (chMass : Option ℝ) (radius : Option (Option ℝ)) (p : String × WModes) : Py (String × WModes) := do
  let w ← dimensionless chMass p.2
  let w ← shiftTimes radius w
  let w ← monotonic w
  pure (p.1, w)

/-- `abd.psi4[:, sf.LM_index(ell_min, -ell_min, 0) :] = factor * data` (lines 626-645), with the rules of numpy for arrays of different shapes: what has size 1 is repeated. -/
def assign (f : ℝ) (L : Int) (nt : Nat) (w : WModes) : Py (List (Row ℂ)) :=
  let start := lmIndex w.ellMin (-w.ellMin) 0
  let size := (L + 1) ^ 2
  let target := max 0 (size - start)
  let columns := (w.ellMax + 1) ^ 2 - w.ellMin ^ 2
  if columns ≠ target ∧ columns ≠ 1 then .error .valueError
  else if w.data.length ≠ nt ∧ w.data.length ≠ 1 then .error .valueError
  else .ok ((List.range nt).map fun i => fun k =>
    if start ≤ k ∧ k < size then (f : ℂ) * (w.data.getD (if w.data.length = nt then i else 0) fun _ => 0) (if columns = target then k - start else 0) else 0)

/-- `if label in WMs: …`, otherwise the zeros of the new object. -/
def field (f : ℝ) (L : Int) (nt : Nat) (w : Option WModes) : Py (List (Row ℂ)) := match w with
  | none => .ok (List.replicate nt fun _ => 0)
  | some w => assign f L nt w

/-- `sf.Modes.bar` of a row of modes from `ell = 0` (external): `(-1)^(s+m)` times the conjugate of the mode `(ell, -m)`. -/
noncomputable def barRow (s L : Int) (row : Row ℂ) : Row ℂ := fun k =>
  match (LMRange 0 L)[k.toNat]? with
  | some (ell, m) => (-1) ^ (s + m).natAbs * (starRingEnd ℂ) (row (lmIndex ell (-m) 0))
  | none => 0

/-- `abd.sigma = abd.sigma.bar` (lines 648-657), for `"h"` or else `"Strain"`. -/
noncomputable def sigma (f : ℝ) (L : Int) (nt : Nat) (ws : List (String × WModes)) : Py (List (Row ℂ)) :=
  match (ws.lookup "h").orElse fun _ => ws.lookup "Strain" with
  | none => .ok (List.replicate nt fun _ => 0)
  | some w => do
    let rows ← assign f L nt w
    pure (rows.map (barRow 2 L))

/-- The assignments of lines 612-657. -/
noncomputable def build (F : List ℝ) (ref : WModes) (ws : List (String × WModes)) : Py Abd := do
  let L := ref.ellMax
  let nt := ref.t.length
  let psi4 ← field (F.getD 4 0) L nt (ws.lookup "Psi4")
  let psi3 ← field (F.getD 3 0) L nt (ws.lookup "Psi3")
  let psi2 ← field (F.getD 2 0) L nt (ws.lookup "Psi2")
  let psi1 ← field (F.getD 1 0) L nt (ws.lookup "Psi1")
  let psi0 ← field (F.getD 0 0) L nt (ws.lookup "Psi0")
  let sig ← sigma (F.getD 5 0) L nt ws
  pure { t := ref.t, ellMax := L, data := ![psi0, psi1, psi2, psi3, psi4, sig] }

/-- Lines 586-657: the waveforms as a dictionary (in the order of insertion); `WM_ref` is the first of them, also after the loop. -/
noncomputable def create (convention : String) (chMass : Option ℝ) (radius : Option (Option ℝ)) (wms : List (String × WModes)) : Py Abd := match wms with
  | [] => .error .valueError
  | (_, ref) :: _ => do
    wms.forM fun p => checkTimes ref.t p.2.t
    let ws ← wms.mapM (prepare chMass radius)
    let F ← factors convention
    build F (ws.headD ("", ref)).2 ws

/-- `abd.interpolate(new_times)` (lines 186-201): every mode on its own. -/
def interpolate (spline : List (ℝ × ℂ) → ℝ → ℂ) (a : Abd) (ts : List ℝ) : Abd :=
  { t := ts, ellMax := a.ellMax, data := fun c => ts.map fun t => fun k => spline (a.t.zip ((a.data c).map fun row => row k)) t }

/-- `t_interpolate[idx1:idx2]` (lines 660-663), for data from `first` to `last`. -/
noncomputable def selectTimes (ts : List ℝ) (first last : ℝ) : Py (List ℝ) :=
  if ts = [] then .error .valueError
  else
    let idx1 := ComMotion.argmin (ts.map fun t => |t - first|) + 1
    let idx2 := ComMotion.argmin (ts.map fun t => |t - last|) + 1 - 1
    .ok ((ts.take idx2).drop idx1)

/-- The property `h` (lines 119-131): `2 * sigma.bar`, from `ell = 2`. -/
noncomputable def strain (a : Abd) : WModes :=
  { t := a.t, dataType := Weights.h, inertial := true, rOut := true, mOut := true, ellMin := 2, ellMax := a.ellMax, frame := []
    data := (a.data 5).map fun row => fun k => 2 * barRow 2 a.ellMax row (k + lmIndex 2 (-2) 0) }

end Verif.CreateAbd
