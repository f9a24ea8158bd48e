import Verif.Py.Basic

/-!
# Model of what happens to keyword arguments

Functions with `**kwargs`: `WaveformBase.__init__`, `WaveformModes.__init__`, `WaveformGrid.__init__`, `WaveformGrid.from_modes`, `WaveformGrid.transform`, `read_from_h5`, `create_abd_from_h5`, the functions of `scri/sample_waveforms.py`,
`AsymptoticBondiData.transform`, `BMSTransformation.__init__` and `LorentzTransformation.__init__`.  Only the passage of the arguments is modelled: which of them are taken from the dictionary, and what is left for the warning.  The checks of the
values, which may raise an exception, are those of other models (C16, C35).
-/

namespace Verif.Keywords
open Verif

/-- `kwargs` -/
abbrev Dict (V : Type) := List (String × V)

/-- The dictionary, and the values that were taken from it. -/
structure St (V : Type) where
  kw : Dict V
  got : String → Option V

/-- What a function has taken, and the arguments that its warning lists (no warning if there are none). -/
structure Call (V : Type) where
  got : String → Option V
  warned : Dict V

variable {V : Type}

/-- The beginning of the call. -/
def start (kw : Dict V) : St V := { kw := kw, got := fun _ => none }

/-- `kwargs.pop(k, ...)`, or `if k in kwargs: ... kwargs.pop(k)`. -/
def pop (s : St V) (k : String) : St V :=
  { kw := s.kw.filter fun p => p.1 != k, got := fun x => if x = k then s.kw.lookup k <|> s.got k else s.got x }

/-- Several of them. -/
def popAll (s : St V) (ks : List String) : St V := ks.foldl pop s

/-- `if kwargs: warnings.warn(...)` -/
def warn (s : St V) : Call V := { got := s.got, warned := s.kw }

/-- No such lines. -/
def quiet (s : St V) : Call V := { got := s.got, warned := [] }

/-! ## Constructors of waveforms -/

/-- The positional arguments of a constructor: none, an object of the same class, or something else. -/
inductive Args where
  | none
  | object
  | other

/-- `WaveformBase.__init__` (`scri/waveform_base.py` lines 217-270). -/
def baseInit (args : Args) (s : St V) : Py (Call V) :=
  let s := pop s "override_exception_from_invalidity"
  match args with
  | .none => .ok (warn (popAll s ["t", "frame", "data", "history", "version_hist", "frameType", "dataType", "r_is_scaled_out", "m_is_scaled_out", "constructor_statement"]))
  | .object => .ok (warn s)
  | .other => .error .valueError

/-- `WaveformModes.__init__` (`scri/waveform_modes.py` lines 127-140). -/
def modesInit (args : Args) (kw : Dict V) : Py (Call V) :=
  match args with
  | .object => baseInit .object (start kw)
  | a => baseInit a (popAll (start kw) ["ell_min", "ell_max"])

/-- `WaveformGrid.__init__` (`scri/waveform_grid.py` lines 197-199). -/
def gridInit (args : Args) (kw : Dict V) : Py (Call V) := baseInit args (popAll (start kw) ["n_theta", "n_phi"])

/-! ## Transformations -/

/-- The arguments read by `process_transformation_kwargs` (`scri/waveform_grid.py` lines 24-119). -/
def gridNames : List String := ["supertranslation", "spacetime_translation", "space_translation", "time_translation", "n_theta", "n_phi", "frame_rotation", "boost_velocity"]

/-- `for DT in range(dataType + 1, psi4 + 1)`: the name `psi{}_modes` with the last letter of `DataNames[DT]` (lines 525-527); `psi0` to `psi4` are 1 to 5. -/
def required (dataType : Nat) : List String := ["psi1_modes", "psi2_modes", "psi3_modes", "psi4_modes"].drop (dataType - 1)

/-- Lines 525-532: each of them must be there. -/
def popRequired (s : St V) : List String → Py (St V)
  | [] => .ok s
  | k :: ks => if (s.kw.lookup k).isSome then popRequired (pop s k) ks else .error .valueError

/-- `WaveformGrid.from_modes(w_modes, **kwargs)` (lines 448-613) for data of the type `dataType`.  `trivial` says whether there is neither a boost nor a supertranslation beyond a time translation (line 485). -/
def fromModes (trivial : (String → Option V) → Bool) (dataType : Nat) (s : St V) : Py (Call V) := do
  let s := popAll s gridNames
  let s ← if trivial s.got = false ∧ 1 ≤ dataType ∧ dataType ≤ 4 then popRequired s (required dataType) else pure s
  pure (warn s)

/-- `WaveformGrid.transform(w_modes, **kwargs)` (lines 629-630) and `WaveformModes.transform` (`scri/waveform_modes.py` line 719). -/
def transform (trivial : (String → Option V) → Bool) (dataType : Nat) (kw : Dict V) : Py (Call V) := fromModes trivial dataType (pop (start kw) "ell_max")

/-- The arguments read by `_process_transformation_kwargs` (`scri/asymptotic_bondi_data/transformations.py` lines 14-90). -/
def abdNames : List String := ["supertranslation", "spacetime_translation", "space_translation", "time_translation", "output_ell_max", "working_ell_max", "frame_rotation", "boost_velocity"]

/-- `AsymptoticBondiData.transform(**kwargs)` (lines 286-292): `**kwargs` makes a new dictionary for the called function, which does not return what is left. -/
def abdTransform (kw : Dict V) : Py (Call V) := .ok (quiet (popAll (start kw) abdNames))

/-- `BMSTransformation.__init__` and `LorentzTransformation.__init__` (`scri/bms_transformations.py` lines 271-283 and 185-196): `order` is taken after the call of `_process_transformation_kwargs`. -/
def bmsInit (kw : Dict V) : Py (Call V) := .ok (quiet (pop (popAll (pop (start kw) "ell_max") abdNames) "order"))

/-! ## Files -/

/-- `read_from_h5(file_name, **kwargs)` (`scri/SpEC/file_io/__init__.py` lines 172-222 and 325-328): an argument is used if the file does not have the attribute. -/
def readH5 (attrs : String → Bool) (kw : Dict V) : Py (Call V) :=
  .ok (warn ([("FrameType", "frameType"), ("DataType", "dataType"), ("RIsScaledOut", "r_is_scaled_out"), ("MIsScaledOut", "m_is_scaled_out")].foldl (fun s p => if attrs p.1 then s else pop s p.2) (start kw)))

/-- The labels of the data (line 557). -/
def dataLabels : List String := ["Psi4", "Psi3", "Psi2", "Psi1", "Psi0", "h"]

/-- `create_abd_from_h5(file_format, ..., **kwargs)` (lines 518-584), with the format in lower case.  The named parameters are not in `kwargs`. -/
def createAbd (format : String) (kw : Dict V) : Py (Call V) :=
  if format = "spectrecce_v1" then
    if (kw.lookup "file_name").isSome then .ok (warn (pop (start kw) "file_name")) else .error .valueError
  else if dataLabels.any (fun k => (kw.lookup k).isSome) ∧ format ∉ ["sxs", "cce", "rpxmb", "rpxm", "rpdmb", "rpdm"] then .error .valueError
  else .ok (warn (popAll (start kw) dataLabels))

/-! ## Sample waveforms (`scri/sample_waveforms.py`) -/

/-- `modes_constructor` (lines 31-42). -/
def modesConstructor (kw : Dict V) : Py (Call V) := .ok (warn (popAll (start kw) ["t", "frame", "frameType", "dataType", "r_is_scaled_out", "m_is_scaled_out", "ell_min", "ell_max"]))

/-- `constant_waveform` (lines 66-77) and `single_mode` (lines 91-101): nothing is taken, and nothing is passed to `modes_constructor`. -/
def constantWaveform (kw : Dict V) : Py (Call V) := .ok (warn (start kw))

/-- `random_waveform` (lines 122-134) and `random_waveform_proportional_to_time` (lines 167-179).  `true'` is the truth value of an argument. -/
def randomWaveform (true' : V → Bool) (kw : Dict V) : Py (Call V) :=
  let s := popAll (start kw) ["begin", "end", "n_times", "uniform_time"]
  let s := if (s.got "uniform_time").any true' then pop s "t" else s
  .ok (warn (pop s "rotating"))

/-- The arguments of `single_mode_constant_rotation` (lines 222-233), `single_mode_proportional_to_time` (lines 280-291) and `single_mode_proportional_to_time_supertranslated` (lines 328-346). -/
def singleNames : List String := ["s", "ell", "m", "ell_min", "ell_max", "data_type", "t_0", "t_1", "dt"]
def constantRotation (kw : Dict V) : Py (Call V) := .ok (warn (popAll (start kw) (singleNames ++ ["omega"])))
def proportionalToTime (kw : Dict V) : Py (Call V) := .ok (warn (popAll (start kw) (singleNames ++ ["beta"])))
def supertranslated (kw : Dict V) : Py (Call V) := .ok (warn (popAll (start kw) (singleNames ++ ["beta", "supertranslation", "space_translation"])))

end Verif.Keywords
