# Formal model of moble/scri in Lean 4

This document says what is modelled, how each property of `properties.jsonl` is
proved, and what has to be trusted.

## 1. Layout

* `lean/Verif/Py/*`    – small pieces of Python/numpy semantics used by the models
  (exceptions as values, slices, negative indices, array helpers).
* `lean/Verif/Model/*` – the model, one module per source file or function group.
  Every definition cites the file and lines in `/repo` that it models and says
  where it simplifies.
* `lean/Verif/Spec/*`  – small independent specifications; where they import a model it is
  for the types of the arguments and results.
* `lean/Verif/Lemmas/*` – helper lemmas.
* `lean/Verif/Props/*` – the property theorems, one module per property group,
  with `example`s showing that the hypotheses can be met.

## 2. Modelling conventions

* Unsigned machine words are `BitVec 64` (XOR encoding) or `Nat` with an explicit
  bound (`fletcher32`, `multishuffle`), because there the property is about bits
  and overflow.
* Floating-point data are modelled by `ℝ` / `ℂ` (or any linear order / field when
  only order or algebra matter).  Rounding, NaN and infinities are not modelled
  unless the definition says so.
* Loops are structural recursion, folds, or recursion on explicit fuel when the
  code may fail to terminate.
* In-place mutation returns the new value.  Exceptions are values (`Except Err`).
* External libraries (spherical_functions, quaternionic/quaternion, spinsfast,
  scipy splines, h5py) are parameters.  What is assumed about them is a hypothesis
  of the theorem and listed in section 5.

## 3. Plan per property

| id | what is modelled | how it is proved |
|----|------------------|------------------|
| C01 | both XOR loops over lists of rows of 64-bit words | induction on the time axis |
| C02 | forward and inverse bit loops of `multishuffle` on bit streams | layout theorem + inverse of a position bijection |
| C03 | width check, write positions | decision logic; layout = spec concatenation |
| C04 | blocked accumulation with explicit uint32 wrap | invariant over blocks, bound 360-block |
| C05 | same | arithmetic mod 65535 |
| C06 | the running-maximum filter | induction over prefix; spec "greater than all kept before" |
| C07 | `LM`, `index`, `indices` | bijection by arithmetic |
| C08 | the conjugate-pair double loop on an array | pointwise spec, inverse laws |
| C09 | parity operations as written (index reversal and signs) | algebra on modes |
| C10 | `ladder_factor` loop | induction over operation list |
| C11 | in-place block matrix multiplication; D defined by the documented formula of spherical_functions | representation and unitarity proved from the formula (binary forms), loops by induction |
| C12 | state machine of rotations | invariant over histories |
| C13 | numpy broadcasting of frame product | case analysis; negation for bad cases |
| C14 | call trees with depth counter | induction over trees; negation for exceptions |
| C15 | constructor counter | invariant over histories |
| C16 | the check list | equivalence with spec; negation for dropped super result |
| C17 | Python slices on times and ell | spec by membership; negations for corner cases |
| C18 | tables, SI scaling | finite tables by `decide`, scaling algebra |
| C19 | translation tables, substring search | tables, witness for misdetection |
| C20 | the loops of `_LVector`, `_LdtVector` | sums over modes, operator spec |
| C21 | loops of `_LLMatrix`, `_LLComparisonMatrix` | operator spec; negation for the misplaced write |
| C22 | `energy_flux` | sum of squares |
| C23 | sparse/dense expectation values and flux matrices | finite sums; selection rules |
| C24 | the loops of `transition_function`, its derivative and `bump_function` over sorted lists of reals | lists split by the loops; real analysis; negation at the cutoff and past the end |
| C25 | `transition_to_constant` with the integral as input | list arithmetic; negation for times that do not reach `t2` and for constants |
| C26 | `intersection` loop with fuel and bounded buffer | ranking argument |
| C27 | `monotonic_indices` with fuel | negation of termination + partial correctness |
| C28 | `_Extrapolate` with `polyfit` any function that returns a least-squares solution | normal equations, uniqueness for enough distinct radii, exactness for polynomial data |
| C29 | file system with times; `RunExtrapolation` as atomic steps, each of which may raise or be followed by a crash; other programs run in between | invariant over all histories; `MarkersNewer`: any sequence of writes and removals after a finished run, with a clock that advances |
| C30 | `Dir`: what is known in one direction of the grid (`v·r`, `ð(v·r)`, `α`, `ðα`, `ððα`, the six fields); `fprime` the Horner forms; `transform` the choice of slices and interpolation; `gridValue` the same for `WaveformGrid.from_modes` | mixing law by ring identities for all values; the interpolant passes through its nodes, so translation in time shifts times only; the two implementations agree up to the conventions; a missing component is refused |
| C31 | pointwise, and for functions on the sphere as a commutative ring with a derivation `ð` | composition and inverse as ring identities; `ðð(1/k) = 0` is the only fact about boosts used |
| C32 | `slices`, `gridSlices`, conformal factors; `Bprm` (rotor from `r'` to `r`) with quaternions | order arguments; half-angle formulas; Rodrigues' formula |
| C33 | `fromPoly` (σ constant, linear or quadratic in time) and `fromSeries` (σ a function of time) over an abstract space of mode weights with `ð`, product and conjugation (`Sphere`); the functions of `constraints.py` | derivative of Horner forms, bilinearity; fundamental theorem of calculus; the mass aspect has a real derivative and a real initial value |
| C34 | all of `bms_charges.py` but `CWWY_angular_momentum`, at one time, on mode weights `(ell, m) ↦ ℂ`; products of functions a parameter | integrals over the sphere of functions with `ell <= 1` computed; root algebra; Pauli-Lubanski vector |
| C35 | `_process_transformation_kwargs` and the first part of `process_transformation_kwargs`: padding, size check, loops over the weights, overrides, rotor, velocity | induction over the labels of the loops; the part with `ell <= 1` as the function `t - x·r` on the sphere; agreement of the two implementations on real input |
| C36–C37 | all of `bms_transformations.py` but files and `is_close_to`: spin matrices with exact formulas, `np.linalg.svd` by its specification, supertranslations as functions on the sphere (`Model/Bms.lean`); group elements as maps of null infinity (`Spec/Bms.lean`) | spin matrices and polar decomposition for the Lorentz part, weight 1 functions on the light cone for the supertranslations; failures for small `ell_max` proved |
| C38 | `com_motion` and `estimate_avg_com_motion` without plots and H5 access: the three kinds of binaries, the window, `simps`, the closed formulas (`Model/ComMotion.lean`) | normal equations and convexity, with exact integrals for all continuous motions and with Simpson's rule on samples; failure for windows that do not end at samples proved |
| C39 | `rotation_from_spin_charge` with `argmin` and `normalized` | components of the rotor; the rotation takes z to the direction of the spin |
| C40 | `pn_leading_order_amplitude` over the reals | case analysis on the sign of `m` and parity; six modes compared with the published leading terms |
| C41 | the loops of the solvers and of `map_to_superrest_frame` (`Model/SuperrestLoop`); charges, products and transformations of data are parameters | invariant over the trials made so far |
| C42 | the two nested loops over characters | equality with a search in the list of rules |
| C43 | `_allclose`: objects are a type name and a dictionary of arrays, rotor arrays and plain values; `np.allclose` with broadcasting | verdict proved by induction over the attributes, compared with a separate notion of agreement |
| C44 | `save` and `load` on 64-bit words, arithmetic as a parameter, JSON and H5 files as records | round trip from C01; checksums from C05; `PairedBits`: a flipped bit of the stored modes |
| C45 | inner product | sesquilinear form |
| C46 | norm, argmax | list induction |
| C47 | `truncate` over reals: norm, tolerance per mode, power of 2, rounding ties to even (`Model/Truncate`) | bounds for each part and for the norm, idempotence; witness that zero rows become nan and that a second call rounds again |
| C48 | `grid_multiply` with the harmonics as functions of rotors and the grid of spinsfast (`Model/GridMultiply`); `map2salm` is a parameter with a contract | Clebsch-Gordan series for elements of Wigner matrices (`Lemmas/WignerProduct`), values on the grid determine modes (`Lemmas/GridInjective`) |
| C49 | `𝔇`, `𝔇inverse` as loops over slices | induction over `ell`; comparison with the model of `apply_eth` |
| C50 | `MT_to_WM`, `WM_to_MT`, `abd.h` | index arithmetic |
| C56 | the loops of the three solvers (`Model/SuperrestLoop`) | invariant |
| C57 | `rotation(abd, phi)` with the model of `rotate_physical_system` | Wigner matrix of a rotation about z |
| C58 | `np.polyfit`, `transformation_from_CoM_charge`, the model of BMS transformations | least squares of exact data; null geometry |
| C51 | `descriptor_string` | complete case analysis; collision as witness |
| C52 | `angular_velocity`, with `np.linalg.solve` a parameter | the objective is a quadratic form (C20, C21); convexity |
| C54 | `momentum_flux`, `p_z`, `p_plusminus`, with the table of Clebsch–Gordan coefficients | orthogonality of the coefficients bounds the norm of the three operators; Cauchy–Schwarz |
| C55 | `angular_momentum_flux`, `j_z`, `j_plusminus` | matrix elements equal those of the operators of C20 |
| C53 | the two sign loops of `_LLDominantEigenvector` | induction along the sequence; negation for directions between 60 and 90 degrees apart |
| C59 | `compare`: times by the model of `intersection`, frames by the sizes, columns by `LM_index` with python indexing; `squad`, the mean rotor and the splines are parameters | differences mode by mode from C07; frame algebra of quaternions; witnesses for the broken branches |
| C60 | `WaveformGrid.from_modes`, `to_modes`, `transform` and `WaveformModes.transform` over ℝ and ℂ, on the equi-angular grid `rect`; splines and `map2salm` are parameters | values by the expansion in `Y` and the Wigner matrices of C11; modes by uniqueness (C48); aberration and Doppler factor from C30, C32 |
| C61 | `AsymptoticBondiData.transform` from modes to modes over ℝ and ℂ (`Model/AbdModes`, with `Model/TransformKwargs` and `Model/AbdTransform`); `CubicSpline` and `map2salm` are parameters | one direction by C30, C32; aberration as in C60; rotations by the expansion in `Y` and the Wigner matrices of C11 |
| C62 | `create_abd_from_h5` after the files are read, the property `h` and `interpolate` of the data, over ℝ and ℂ (`Model/CreateAbd`) | assignments to rows by the index formula (C07); times by C06; conjugate of a harmonic from that of the Wigner matrices (`Lemmas/WignerConj`); laws of C60 and C61 compared term by term |
| C63 | `energy_flux`, `momentum_flux`, `p_z`, `p_plusminus` (`Model/Flux`) against integrals over the sphere (`Spec/Sphere`) | Clebsch-Gordan series of a vector with degree ell for Wigner matrices (`Lemmas/ClebschProduct`, `ClebschSeries`, `ClebschY`); the integral of one harmonic from the integrals of the powers; orthonormality by induction on ell with the symmetric series (`Lemmas/Sphere`) |
| C64 | the fluxes of C63 for the result of `rotate_decomposition_basis` (`Model/Flux`, `Model/Rotation`) | the integrals of C63; products of expansions are expansions (C48); only the mode (0,0) contributes to the integral and a rotation does not change it |
| C65 | `LVector`, `LdtVector`, `LLMatrix`, `angular_velocity`, `angular_momentum_flux` (`Model/ModeCalc`, `Model/Flux`) on the result of `rotate_decomposition_basis` | the angular-momentum operators are the part of degree ell of the product with the direction (Clebsch-Gordan series of C63), the integral of which does not change in a rotation (`Lemmas/AngMomCov`) |
| C66 | `boost_flux`, `poincare_fluxes` (`Model/BoostFlux`) | each of the eight expectation values is the integral of a product of three fields (Clebsch-Gordan series of C63, and matrices of `eth chi`, `ethbar chi`), so their sum is the documented integral (`Spec/Boost`); rotation invariance of the integral; dependence on `u` is linear |
| C67 | `apply_eth`, `ladder_factor` (`Model/Ladder`), `boost_flux` (`Model/BoostFlux`) | derivatives of the harmonics in theta and phi from the polynomial generating function (`Lemmas/SphereDeriv`); the differential operators are stated with `deriv` in `Spec/SphereOps`; induction on the sequence of operations |
| C68 | `LVector`, `LdtVector`, `LLMatrix`, `angular_velocity` (`Model/ModeCalc`), `angular_momentum_flux` (`Model/Flux`) | raised and lowered harmonics are combinations of the derivatives of a harmonic (`Lemmas/SphereDeriv`), so the matrices of C20 are the differential operators of `Spec/SphereOps`; orthonormality of the harmonics (C63); the integral ignores the poles |
| C69 | `bms_charges` (`Model/Charges`), `flux` (`Model/Flux`, `Model/BoostFlux`) | the product is any operation that gives the modes of the product of functions; charges with `ell = 1` are integrals against the unit vector (`Lemmas/Balance`); integration by parts for `ð`, `ð̄` on the sphere (`Lemmas/SphereParts`), `ðð̄ - ð̄ð`, and the generators of rotations in terms of `ð` (`Lemmas/BalanceIntegrals`) relate the six integrals that occur; the equations of Bondi gauge are in `Spec/Balance`; a shear growing linearly in time meets them |
| C70 | `BMSTransformation.__init__`, `copy`, `to_file`, `from_file`, with a model of HDF5 files (`Model/BmsFile`) | refinement to an abstract store, file → place → transformation (`Spec/BmsFile`), by induction on the calls; constructing an object again from its attributes is the identity (normalization and reality are idempotent) |
| C71 | `is_close_to` (`Model/BmsFile`, `np.allclose` of `Model/Allclose`) | exact characterization for equal `ell_max`; witnesses for the four ways in which the full property fails |
| C72 | `AsymptoticBondiData.__init__`, setters, `copy`, `interpolate`, `ModesTimeSeries.time`, `time_translation` as operations on a memory of arrays (`Model/AbdHeap`) | refinement of the memory to values (`Spec/AbdHeap`) by an invariant on programs (no two objects share data; which arrays of times are shared); counterexamples for copies |
| C73 | `ModesTimeSeries.__new__`, `interpolate`, `derivative`, `antiderivative`, `dot`, `ddot`, `int`, `iint` (`Model/TimeSeries`) | refinement to curves through the data (`Spec/TimeSeries`), from what is assumed of splines; decision logic of the constructor; witnesses for `out`, integer times and positional arguments |
| C74 | `write_to_h5`, `read_from_h5` with names of files and datasets as strings (`Model/SpecFile`) | round trip: printing and parsing of numbers and names, sorting of any listing of the datasets by mode, masks of monotonic times; soundness of the reader for any file; frame property of writes; witnesses for what is lost |
| C75 | `get_alignment_of_decomposition_frame_to_modes`, `align_decomposition_frame_to_modes` with exact arithmetic (`Model/Align`) | the square root of a quaternion takes z to the dominant vector; covariance of `LL` (C65) makes z dominant; rotation about z multiplies modes by phases; interpolation commutes with constant rotations; window of rows by cases; witness for the phase |
| C76 | `to_coprecessing_frame`, `to_corotating_frame`, `corotating_frame` with exact arithmetic (`Model/Frames`) | rotor to a vector followed by turns about z; series rotation (C12) and covariance of `LL`; the mean of rotated vectors; rounding to multiples of a power of 2; `exp(log q) = q` by cases; failing case for short waveforms |
| C77 | `CWWY_angular_momentum` (`Model/Cwwy`), the charges of `Model/Charges`; new frame in `Spec/Supertranslation` | charges as integrals with the functions x, y, z; integration by parts on the sphere; `ð² N = 0` for those functions; the real and imaginary parts of the change separately; a witness that `bondi_angular_momentum` is not invariant |
| C78 | `modes_constructor`, `constant_waveform`, `single_mode`, the waveforms with one mode, the supertranslated one, the loop over radii of the finite-radius file (`Model/Samples`) | the loops over modes by induction on lists; the modes as integrals over the sphere, by orthonormality and selection of the azimuthal number; 3-j symbols up to ell = 1 from the Clebsch-Gordan table; witnesses for what the documentation claims wrongly |
| C79 | `compute_bondi_rest_mass_and_conformal_factor`, `compute_Moreschi_supermomentum`, `compute_alpha_perturbation`, `supertranslation_to_map_to_superrest_frame` (`Model/Moreschi`) | the harmonics with ell ≤ 1 as functions of the angles; modes of values on the grid (C48); 𝔇 and its inverse on modes (C49); an invariant of the loop by induction on the number of passes (for all data: the error kept is that of the supertranslation returned; for data that radiate into all directions alike: the errors are powers of rate/eigenvalue, `Spec/SuperrestRadiating`); witnesses for the wrong sign and the sizes of the grids |
| C80 | `map_to_abd_frame`, `rel_err_between_abds` (`Model/AbdFrame`) | the loop by induction on the number of passes: a list of tries as specified, of which the first best is kept (as in C41); exactness as an invariant for any group action; the error by positivity of the integral |
| C81 | the functions of C34 and C61 together (`Model/Charges`, `Model/AbdModes`) | products of rotated functions are rotated products, by invariance of the integral over the sphere (C64, C65); conjugation by the symmetry of the Wigner matrices; vectors by the adjoint of a rotation |
| C82 | `read_finite_radius_waveform` (342-416) after the reading of the datasets (`Model/FiniteRadius`) | closed form of the cumulative sums by induction; telescoping for constant rates; homogeneity of each step for the units |
| C83 | `pick_Ch_mass`, `validate_*`, format and selection in `read_finite_radius_data`, `set_common_time`, the choice of the outermost data (`Model/FiniteRadius`) | the last of a sorted list is the largest; induction over the waveforms with C26 for the times; bins of the histogram as intervals |
| C84 | `*_parity_violation_squared`, `*_parity_violation_normalized` (768-943) over the parity model of C09 and the norm of C46 (`Model/Violation`) | parallelogram law; inversion commutes with Wigner rotations (conjugation symmetry of D), rotations keep the norm |
| C85 | `from_sxs` and `to_sxs` (142-262) with the constructor and `ensure_validity` of C16 (`Model/Exchange`) | cases over the shapes of frames; names by a table of all types; C16 for the validity of the result |
| C86 | `WaveformTimeScale`: the default stretch, both transforms and the limits (`Model/MergerZoom`) | closed form with min and max; cases at the boundaries |
| C87 | `remove_avg_com_motion` without plots (`Model/ComCorrection`) | induction over the positions of a string; count of removed characters for the file not to be overwritten |
| C88 | `LVC.read_from_h5` (`Model/Lvc`) | induction over the loop that fills the array, with the index of a mode (C07); induction over the text of the history |
| C89 | `norm`, `max_norm_time`, `inner_product` together with the rotations (the models of C11, C12, C45 and C46) | Parseval's theorem (C63) and unitarity of the Wigner matrices (C11) |
| C90 | `_safe_format`, `FindPossibleExtrapolationsToRun` (`Model/Batch`) | induction over the pieces of a template with the state of the parser; induction over the steps of `os.walk` and over paths |
| C91 | the six primed fields (`Model/AbdTransform.fprime`) as functions of the new time and direction; `Model/AbdModes` through `newValue` | first jets of functions of `(u, θ, φ)` and their chain rule under `(u', θ', φ) ↦ (u, θ, φ)`; aberration as a conformal map of the sphere; `ð` as a differential operator (C67); real modes for `ð²ð̄²α` |
| C92 | `charge_vector_from_aspect`, `bondi_four_momentum` (`Model/Charges`), the primed fields (`Model/AbdTransform`) | aberration as a change of variables in the integral over the sphere, `w (1, r') = Λ (1, r)`; Parseval for `ð²ð̄²α`; `mass_aspect` of C91 |
| C93 | `fake_precessing_waveform` (`Model/Precessing`) | existence of the pieces (phase, frequency, factor of the ringdown, angles) by following the function; nearest times of a uniform grid; rotations of the `z` axis; derivatives of powers |
| C94 | mixing, time and direction maps of `transform`; `bondi_boost_charge`, `bondi_angular_momentum`, `bondi_dimensionless_spin` | the Lorentz aspect is a density of weight 3 and spin 1 on the common cut; change of variables on the sphere; without news the aspect's dependence on u integrates to zero against the dipole; the code's charges are these integrals (`code_charges`) |
| C95 | both `run_in` and the main parts of `find_com_in_catalog.py` and `remove_avg_com_from_catalog.py` (`Model/Catalog`) | induction over the files; cutting and joining of strings; the call with a string in place of a waveform always raises |
| C96 | one pass and the loop of `com_transformation_to_map_to_superrest_frame` on data given as functions (`Model/ComFrame`) | the law of the aspect under translations, composed with the boost law of C94; products of BMS transformations (C36, C37); the two passes are computed |
| C97 | the model of `transform` of C61 | covariance of `boosted_grid` (the rotor of the distortion is conjugated), of the expansions in all directions (Wigner D matrices) and of the time shift; the lists of keywords are constructed |
| C98 | `random_waveform`, `random_waveform_proportional_to_time`; numpy's generator is a function of seed and position, the string hash is a parameter | the draws are followed through the code; sorting; witnesses for the refutations |
| C99 | the functions of `constraints.py` on weights of modes with their spin weight and `ell_max`; `transform` with the truncator of the result | weights to functions on the sphere (C67, C48), Parseval; rotation of the weights term by term (C81); a witness for the refutation |
| C100 | `interpolate`, `data_dot`, `data_ddot`, `data_int`, `data_iint`; `quaternion.squad` step by step; `energy_flux` with its derivative | the interval of each time by induction over the times; the algebra of rotors about one axis; witnesses for the refutations |
| C101 | `rotation_from_vectors` and the loop with a target, with `angular_velocity` (C52) and the loop of C41; waveforms as functions of time | covariance of the angular velocity (C65) under the rotation found; derivatives of rotated modes; two modes with different frequencies as the witness |
| C102 | `abs`, `arg`, `arg_unwrapped` with the algorithm of `np.unwrap` on each column | corrections are full turns, and the corrected step is the only one shorter than half a turn; induction over the times |
| C103 | `rel_err_for_abd_in_superrest` without a target strain, on the charges of C34, and with one (`Verif.Model.TargetError`), on the angular velocities of C101; the loop of C41 | each error is a norm, an average of norms, or nan; for data without spin all means are nan (C41) |
| C104 | `map_to_superrest_frame` with its three solvers, the charges they use (C34, C79) and the errors (C103); loops of C41 | each solver finds the identity in its first pass and stops; invariant of the loops over the order and the passes; every recorded error is that of the data in the recorded frame (C41, C103) |
| C105 | the model of C104; no new definitions | covariance of the charges (C81) under the transformations of data that the loops make; the rotation solver needs one pass (C39); induction over the order of the solvers |
| C106 | the model of C104; no new definitions | charges in translated (C77) and rotated (C81) frames; the solvers for the rotation and the center of mass need one pass; induction over the order of the solvers, with the two facts whether there was a rotation and a translation |
| C107 | the model of C104; no new definitions | supertranslations of data compose (functions on the sphere); the inverse of 𝔇 applied to the supermomentum gives the opposite supertranslation (C49, C79); then the induction of C106 over the order of the solvers |
| C108 | `Model/Keywords`: the dictionary of keyword arguments and each `pop`, `in` and warning of the functions, in their order | invariant: the arguments are what has been taken and what is left; the warning lists what is left |
| C109 | `Model/CopyConstruct`: the copy constructors and `copy_without_data` on the objects of C16's model of `ensure_validity` | `ensure_validity(alter=True)` leaves consistent objects alone; for grids the test of the number of points fails |
| C110 | `Model/Rpxmb`: the two functions, with the package `sxs` as parameter | the round trip of C85 applied to the version that is stored |

## 4. Trusted base

* Lean 4.33.0's kernel and the Mathlib definitions used in statements.
* Axioms: at most `propext`, `Classical.choice`, `Quot.sound`.
* The reading of the Python source: nothing ties the model to the code except the
  line citations.

### Which parts of the code are modelled

Per source file: the modules under `lean/Verif/Model` that model it, and what is left out.  In all files: docstrings, printed output, `version_info`, `__repr__`, `__str__` and the text of history lines and warnings are left out.

| file | modules | not modelled |
|---|---|---|
| `scri/__init__.py` | Weights, Validity, Align, Exchange, PairedXor | physical constants, LaTeX names, `__all__` |
| `scri/waveform_base.py` | Validity, CopyConstruct, Keywords, Objects, History, Slicing, Compare, Allclose, Align, Norm, Parity, Violation, Phase, WaveSpline, Weights, Exchange | `frame_type_string`, `data_type_string`, `data_type_latex` (table lookups) |
| `scri/waveform_modes.py` | Modes, Ladder, Truncate, Parity, Violation, ConjPairs, InnerProduct, BoostFlux, Slicing, History, Exchange, Validity, CopyConstruct, Keywords | – |
| `scri/waveform_grid.py` | GridModes, GridMultiply, AbdTransform, TransformKwargs, Keywords, Validity, CopyConstruct | `spinsfast` and the Wigner functions are parameters |
| `scri/mode_calculations.py` | ModeCalc, Frames, Align, Dominant | `numpy.linalg` solvers are parameters |
| `scri/rotations.py` | Rotation, Wigner, Frames, Align, History | the recurrence inside `spherical_functions` |
| `scri/flux.py` | Flux, BoostFlux, WaveSpline | – |
| `scri/utilities.py` | Transition, Xor, Multishuffle, Fletcher | – |
| `scri/modes_time_series.py` | TimeSeries, AbdHeap, GridMultiply | the parent class of `spherical_functions` beyond what is used |
| `scri/bms_transformations.py` | Bms, BmsFile, Keywords | h5py |
| `scri/asymptotic_bondi_data/*.py` | AbdHeap, AbdModes, AbdTransform, AbdFrame, TransformKwargs, Charges, Cwwy, Constraints, InitialValues, CreateAbd, Moreschi, Superrest, SuperrestLoop, SuperrestMap, ComFrame, FrameErrors, TargetError, TargetRotation | `scipy.optimize` is a parameter |
| `scri/extrapolation.py` | Extrapolate, Batch, FiniteRadius, Intersection, Markers, Monotonic, DataTypes, Weights | reading of the files themselves; numerical fit (`numpy.linalg.svd`, a parameter) |
| `scri/sample_waveforms.py` | Samples, RandomSamples, Precessing, PnAmplitude, Keywords | the generator of random numbers is a parameter |
| `scri/SpEC/com_motion.py`, `find_com_in_catalog.py`, `remove_avg_com_from_catalog.py` | ComMotion, ComCorrection, Catalog | plots |
| `scri/SpEC/file_io/__init__.py` | SpecFile, CreateAbd, DataTypes, Monotonic, Weights, Keywords | h5py, sxs |
| `scri/SpEC/file_io/corotating_paired_xor.py` | PairedXor | h5py |
| `scri/SpEC/file_io/rotating_paired_xor_multishuffle_bzip2.py` | Rpxmb | the package `sxs` |
| `scri/LVC/file_io.py` | Lvc | h5py |
| `scri/plotting.py` | MergerZoom | matplotlib |
| `.github/scripts/parse_bump_rule.py` | BumpRule | – |

## 5. Assumed behaviour of external code

* `sf.LM_range`, `sf.LM_index` (spherical_functions): `LM_index(ell, m, ell_min) =
  ell*(ell+1) - ell_min^2 + m`; `LM_range` lists the modes in that order and allocates
  `(ell_max+1)^2 - ell_min^2` rows, so a negative number raises `ValueError` (C07, C17).
* numpy basic slicing: Python's `slice.indices` rule, positions gathered in order (C17).
* `sf._Wigner_D_matrices` fills its array with the matrices given by the formula in the package's
  documentation (`Verif/Model/Wigner.lean`), stored in the order `ell`, `m'`, `m`;
  `sf._linear_matrix_offset` is the start of the matrix of `ell`.  That these matrices are a unitary
  representation is proved, not assumed (C11, C12).
* numpy-quaternion: `*` is the quaternion product, `~` the inverse, equal to the conjugate for the unit
  rotors to which the theorems about it apply; numpy broadcasting along the last axis (C12, C13).
* `spherical_functions.clebsch_gordan` with one angular momentum equal to 1 is the standard table (Condon–Shortley
  phases), and exchanging the two arguments multiplies by `(-1)^(l+1-L)` (C54).
* `WaveformModes.interpolate` acts mode by mode; `data_dot` is an arbitrary waveform of the same shape (C22, C23).
* `spherical_functions.ladder_operator_coefficient(ell, m) = sqrt(ell(ell+1) - m(m+1))` (C20, C21).
* `np.linalg.solve(A, b)` returns a solution of `A x = b` or raises (C52).  The code passes `b` of shape
  `(n, 3)`; numpy before 2.0 reads this as `n` vectors, which is what is modelled; numpy 2 reads it as one
  matrix.
* `quaternion.indefinite_integral` returns as many values as it is given, or raises (C25).
* `spline_definite_integral` is a sum with real weights that depend on the times and limits (C45).
* `quaternion.as_quat_array` is an arbitrary partial function (C16).
* numpy-quaternion `x_parity_conjugate` … `parity_symmetric_part` act on the components of a
  quaternion as in `Verif/Model/Parity.lean` (C09).
* `np.polyfit(x, y, N)` with two-dimensional `y` returns, column by column, coefficients that minimise the sum of squares (C28).
- C30–C32: evaluation of modes on the distorted grid and `map2salm` are external: a direction is the list of its values.  `CubicSpline` is a parameter; used: it passes through its nodes.  One-dimensional
  arrays of `sf.Grid` are broadcast over time as in the code (`[:, newaxis, newaxis]`).  The tolerances `3e-14` (speed) and `1e-200` (vector product) in `boosted_grid` are modelled as 0.
- C33: mode weights are elements of a normed space with real-bilinear commutative product (any truncation in `ell` that depends on the operands' `ell_max` only), `eth_GHP` linear, `bar` conjugation compatible with
  the product; `.real`/`.imag` of a series of spin weight 0 are those of the function.  `dot`, `ddot`, `int` are exact derivative and integral from the first time (the code uses splines; `int` of a spline vanishes at the first time).
- C34: `Modes.multiply` and `grid_multiply` are a parameter, truncated as the truncator says; `eth_GHP` multiplies a weight by `√((ell-s)(ell+s+1)/2)`, `ethbar_GHP` by `-√((ell+s)(ell-s+1)/2)`, `bar` and `real` are
  those of functions on the sphere; `np.sqrt` of a negative number is `nan` (`none`).
- C35: `sf.constant_as_ell_0_mode`, `vector_as_ell_1_modes` and their inverses by their formulas; `np.quaternion` takes 0, 1, 3 or 4 numbers; `int(np.sqrt(n))` is the integer root.

* C36, C37: `np.linalg.svd` gives `A = u diag(s) vh` with unitary `u`, `vh` and `s ≥ 0` (for matrices with determinant 1; `svd_spec_can_be_met` shows that this can be met).
  `scipy.linalg.logm` is the principal logarithm, given in closed form for matrices with determinant 1 and real trace. `spinsfast.map2salm` followed by evaluation is the
  identity: supertranslations are functions on the sphere, not cut off at `ell_max`. A nan in a matrix makes `np.linalg.svd` raise.
* C38: `np.argmin` gives the first smallest item; `scipy.integrate.simps` is the composite rule for arbitrary distances, with `even='avg'`.
* `sf.SWSH_modes.Modes(data, spin_weight, ell_min, ell_max)` pads with zeros down to `ell = 0` and sets modes with `ell < |s|` to 0; `.bar` has the modes `(-1)^(s+m) conj f(ell,-m)` (`Superrest.modesNew`, `barRow`).
* `q.normalized()` is `q / |q|`, and nan for 0 (`Superrest.normalized`); BMSTransformation with a rotor nan raises (in `np.linalg.svd`).
* `np.polyfit(t, G, 1)` gives slope and intercept of the least squares line; `vector_as_ell_1_modes(x)` are the modes of `x · r`.
* C47: `np.round` rounds both parts to the nearest integer, ties to even; `np.log2(0)` is minus infinity, of a negative number nan; `0 * inf` is nan.
* C48: `spinsfast.salm2map` evaluates `Σ f_lm sYlm` on the grid `theta_j = pi j/(N-1)`, `phi_k = 2 pi k/N`; `map2salm` on a grid with `N = 2 lmax + 1`, `lmax ≥ 1`, finds the modes of a function that has modes up to `lmax` (`Spec.Exact`, which can be met: `exact_exists`); `Modes` raises ValueError if the number of columns does not fit `ell_max`.
* C43: `np.allclose` (broadcasting, `|a − b| ≤ atol + rtol |b|`, nan never close; infinities are not modelled), `quaternion.as_float_array`.
* C59: `quaternion.squad`, `mean_rotor_in_chordal_metric` and `CubicSpline` are arbitrary functions (lengths as stated in the theorem); `np.quaternion` has no attribute `squad`, numpy no attribute `quaternions`; `rotor_chordal_distance` is the length of the difference.
* C60: `CubicSpline` is any function that takes the given values at the given times (`Interpolates`, satisfiable: `interpolates_exists`); `spinsfast.map2salm` is any function that returns the modes of a field with `ell ≤ ell_max` from its values on a grid with at least `2 ell_max + 1` points in each direction (`Exact`, satisfiable: `exact_exists`). The files with the other components (`psi4_modes`, …) are a parameter.
* C61: `CubicSpline` over complex values is any function that takes the given values at the given times (`Interpolates`, satisfiable: `interpolates_exists`) and rejects fewer than two points; `spinsfast.map2salm` as in C60; `sf.Modes.evaluate` is the sum over the modes with the harmonics `Y` of C48, `sf.Modes.eth` the operator of Newman and Penrose.
* C62: what `read_from_h5`, `rotating_paired_xor_multishuffle_bzip2.load` and `sxs.rpdmb.load` return is a parameter; assignment to a slice of a numpy array follows numpy's broadcasting; `sf.Modes.bar` is `(-1)^(s+m)` times the conjugate of the mode `(ell, -m)`; `CubicSpline` as in C61.
* C63: the harmonics are those of the packages `spherical_functions` and `spinsfast`: Wigner matrices in the convention of C11, evaluated at the rotor of the direction (as in C48).
* C64: as C11 and C63.
* C65: as C11, C20 and C63.
* C66: as C10, C23 and C63; `eth` and `ethbar` are their action on modes in the Newman-Penrose convention.
* C67: as C10, and the harmonics of `spherical_functions` as in C48 and C63.
* C68: as C20, C21, C52, C55 and C63.
* C69: the time derivative of the shear in the charges is exact, and so is the `h` derived from it; the product of two functions is exact for `ell <= 1` (C48).
* C70: `h5py` as described in `Model/BmsFile`: datasets keep what is written, names are taken once, modes of opening files; strings are written and decoded without a change (they contain no null character); names of groups contain no slash.  Normalizing a unit quaternion does not change it (exact arithmetic).
* C71: `np.allclose` with its default tolerances, as in C43.
* C72: `copy.deepcopy` of a `ModesTimeSeries` is a new array of the same class whose `_metadata` is a shallow copy (`Modes.__array_finalize__` of `spherical_functions`), so that its times remain the same array; this is what the docstring of `time_translation` says.  `array[:] = x` checks shapes as numpy does; splines and `quaternion.squad` are parameters.
* C73: `CubicSpline` gives a twice continuously differentiable curve through the data, `derivative` and `antiderivative` its derivatives and its integrals from the first time (`Good.spline`); `spherical_functions.Modes` keeps complete labels and matching data (`Good.keeps`); `ndarray.view(float)` reads the bytes of 64-bit integers as floats (IEEE 754: integers below 2^52 become multiples of 2^-1074).
* C74: HDF5 files as in `Model/SpecFile` (attributes and datasets keep what is written; groups are told apart by their paths as strings); `list(f)` gives the datasets in any order; the regular expression is matched as described there; values of attributes are integers, vectors or others.
* C75: quaternion functions of numpy-quaternion as in `Model/Align` (`sqrt`, `exp`, `normalized`, `inverse`); a cubic spline is linear in the data with weights that depend only on the times; `quaternion.squad` returns unit rotors and commutes with multiplication by a constant on the right; `eigh` returns as last column a unit vector of greatest expectation value; `angular_velocity` of the region returns one vector per time (C52).
* C76: `quaternion.minimal_rotation` multiplies the rotors on the right by rotations about z; `integrate_angular_velocity` returns one unit rotor per time, the first of a damped integration being the given one; `np.round` returns an integer at distance at most 1/2; `np.log`, `np.exp` of unit quaternions as in `Model/Frames`; `eigh` as for C75.  An empty region, and a mean direction of zero, are not modelled.
* C77: `Modes.multiply` with `truncator=1` returns the modes `ell <= 1` of the product of the functions (as for C69).
* C78: `sf.Wigner3j` gives the integrals of three harmonics (`IsThreeJ`); proved for the standard symbols up to `ell'' = 1` (`threeJ1_spec`). `np.arange` over the reals has `ceil((stop - start)/step)` elements.
* C79: `map2salm` gives back the modes of a function on its grid (`Exact`, as in C48); a cubic spline through equal values is constant (`ConstSpline`); one through values of an affine function of time is that function (`AffineSpline`, only in the theorems about radiating data).
* C80: for the exactness of the transformation, BMS transformations act on the data as a group (`Acts`); `indefinite_integral` is positive for functions that are positive (`PositiveIntegral`; true of the trapezoidal rule).
* C81: `sigma.grid_multiply` and `*` give the modes of the product of the functions (`IsProduct`, as in C69); `sigma.dot` is a sum over the values with weights that depend on differences of times only (`Derivative`; true of spline derivatives).
* C82: `scipy.integrate.cumulative_trapezoid` is the trapezoidal rule; indexing of arrays with arrays of indices; exact arithmetic.
* C83: `re.search` of a pattern is a parameter (a substring test in the examples), `float` of a radius is a parameter, splines are functions through the given points, `W.interpolate(T)` has the times `T`; `numpy.histogram` with `bins=n` as documented, in exact arithmetic.
* C84: 0/0 is nan in numpy; exact arithmetic.
* C85: the `sxs.WaveformModes` object keeps its keyword arguments unchanged in its metadata and gives the identity of shape (1,4) as the default frame; `as_float_array`/`as_quat_array` only change shape and type.
* C86: `numpy.piecewise` as documented; float arrays (integer arrays would be truncated); exact arithmetic.
* C87: reading, the estimate of the motion (C38) and the transformation are parameters; the transformation makes a new object without version history and radii (they are not passed on by `from_modes`/`to_modes`); paths in which several slashes precede the name are left out as in C74.
* C88: `InterpolatedUnivariateSpline` is a parameter; that it goes through its data is a hypothesis of `polar_round_trip` only.  What the constructor adds to the history is left out.
* C89: as for C11, C45 and C46; the harmonics are those of C48.
* C90: `string.Formatter` is modelled for names without attributes, indices, conversions and format specifications (those are a parameter) and without nested braces; `os.walk` is the list of its steps.
* C91: the time interpolation is not part of the statement: the fields are functions of all times; directions on the polar axis are excluded (coordinates are singular there).
* C93: `quaternion.calculus.indefinite_integral` returns as many values as it is given, succeeds for two or more, and returns zeros for zeros; `sqrt` of a unit quaternion is a unit quaternion with that square.
* C94: as C34 and C69, `grid_multiply` is a product of functions that keeps all modes up to `L` (`IsProduct`).
* C95: `fnmatch.filter` with a pattern without special characters keeps the equal names; `pandas.read_csv` takes the first cell as label of the row if rows have one cell more than there are names; `str` of a number has no comma and no newline.
* C96: `abd.transform` gives the exact values in every direction (`BondiFrame.moved`, C91); the times of the transformed data contain two different times; the mean over time of a constant is the constant; `polyfit` is exact on a line (C38).
* C98: `np.random.seed(s)` sets the state to seed `s` and position 0; each number drawn is a function of seed and position, uniform numbers are in [0, 1). `hash` of a string is any function.
* C99: the sum and the difference of `Modes` need equal spin weights and keep the larger `ell_max`; `imag` needs spin weight 0; `norm` is the root of the sum of the squared magnitudes of the weights with `abs(s) <= ell`; products are those of C69 (`IsProduct`) cut off at the truncator. The derivative in time is a sum over the values at all times with weights that depend only on the time differences.
* C100: `CubicSpline(t, y)` is a twice differentiable curve through the points with its derivatives and antiderivatives, raises `ValueError` for fewer than two or not increasing times, and is the cubic if the points are on a cubic (not-a-knot; a parabola for three points, a line for two). `quaternion.squad` is modelled from the source of numpy-quaternion; of its `log`, `exp` and `slerp` only the values on rotations about one axis are assumed (`Good`; met by `sample_good`). Rounding is not modelled.
* C101: `numpy.linalg.solve` solves regular systems; `quaternion.optimal_alignment_in_Euclidean_metric(a, b)` returns a unit rotor that takes all `a` to `b` if there is one. (Whether the rotor takes `a` to `b` or `b` to `a` cannot be looked up here: the source of the package is not in the sandbox. With the other convention the `.inverse()` of `rotation_from_vectors` would be wrong. The comparison of different derivatives does not depend on it.) Splines and their derivatives are replaced by the functions they approximate; that `transform` rotates the modes is C61 and C81.
* C102: `np.unwrap` adds to each value the sum of the corrections of the steps before it; a step shorter than `π` has none, any other is moved to the interval from `-π` to `π` by `np.mod`. Signed zeros are not modelled.
* C103: `quaternion.calculus.indefinite_integral` gives an integral that is positive for functions that are not negative and not 0 (`PositiveIntegral`); the product of time series and the truncation are parameters; quotients by 0 are nan.
* C104: `spinsfast.map2salm` (`Exact`), splines through equal values (`ConstSpline`), integrals (`PositiveIntegral`), the product of BMS transformations and the transformation of data (`Group`: the identity does nothing, a time translation is undone by the opposite one) are parameters; a spline at its own times gives the samples; `ell_max` is that of the data.
* C105: the product of BMS transformations and the transformation of data are parameters with their laws for rotations and time translations only, with rotors other than -1 (`Turns`; for the code C36, C61, C81 and C97); products of modes are those of functions on the sphere (`IsProduct`).
* C106: the product of BMS transformations and the transformation of data without radiation are parameters with their laws for translations and rotations other than the rotor -1 (`Frames`; for the code C31, C36, C61, C77, C81; satisfiable: `move_frames`). A translation in space is assumed to leave at least two times if there are two times at a distance from both ends larger than the translation (C32).
* C107: besides the laws of C106, the product of a supertranslation with a translation or rotation, and the transformation of data without radiation by a supertranslation, are parameters with their laws (`Warps`; for the code C31, C32, C36, C61, C77; satisfiable: `warp_warps`). The times that are known in all directions are assumed to be kept (lines 387-396 of scri/asymptotic_bondi_data/transformations.py).
* C108: `dict.pop(name, default)`, `name in dict` and `warnings.warn` are modelled on association lists without repeated names; the values are opaque and the tests on them are parameters.
* C110: `sxs.rpxmb.save` and `sxs.rpxmb.load` are parameters on a state of the file system; the hypotheses of `load_saved` say that what is loaded is the `sxs` object of some consistent waveform with the times, modes, types, flags and versions of the one that was saved (satisfiable: `memory`).

## 6. Disagreements between code and property

* C27, `scri/extrapolation.py:26-43` `monotonic_indices`: the loop never ends when some later
  sample does not exceed the first one by more than `MinTimeStep`.
  `ex_monotonic_indices_terminates_iff` gives the exact condition,
  `ex_monotonic_indices_hangs` a three-sample witness.
* C26, `scri/extrapolation.py:46-123` `intersection`: the end of the common window is never in
  the result, even when a step lands on it exactly, and the result is empty (no error) when
  `min_time >= max_time` lies inside the data.  The theorems state this behaviour.
* C07, `scri/waveform_modes.py:423-455`: `index(ell, m)` does no range check, so a mode outside the
  waveform silently gets the index of another mode (`index_unchecked`).
* C17, `scri/waveform_modes.py:953-1021`: an ell bound equal to 0 is read as "no bound"
  (`getitem_stop_zero`, `getitem_start_zero`); `W[i]` with an integer, which the docstring
  documents, always raises `IndexError` (`getitem_int_raises`); objects with fewer than two columns
  cannot be sliced in ell (`getitem_few_modes`); a constant frame is lost by a slice that does not
  start at the first time (`getitem_constant_frame_lost`).
* C14, `scri/waveform_base.py:38-62` `waveform_alterations`: there is no `try/finally`, so a method
  that raises leaves the depth counter one too high and every later call is recorded only as a
  comment (`raise_leaks_depth`, `after_raise_nothing_recorded`, `exceptions_break_script`).
  `to_inertial_frame`, `truncate` and others append without decrementing first and so record
  themselves as comments (`to_inertial_frame_not_recorded`, `truncate_not_recorded`).
* C15, `scri/waveform_base.py:175-270, 777-795`: the number counter is per class, so objects of
  different classes share numbers (`nums_shared_across_classes`); `__setstate__` takes a number
  without incrementing the counter, so the next object has the same one (`unpickle_collides`); the
  keyword constructor appends to the caller's history list
  (`construct_changes_history_argument`).
* C46, `scri/waveform_base.py:553-575` `max_norm_index`: a negative `skip_fraction_of_data` divides
  to a negative start index, which Python reads from the end (`max_norm_index_negative`).
* C16, `scri/waveform_modes.py:338` and `scri/waveform_grid.py:258`: the return value of
  `super().ensure_validity` is ignored, so `is_valid` of a `WaveformModes` is True although the base
  class found errors (`modes_ignores_base`, `modes_accepts_bad_times`, `grid_ignores_base`).  A `t` of
  shape (0, 3) passes (`base_accepts_empty_2d`).
* C18, `scri/waveform_base.py:969-1044` `SI_units`: the docstring promises curvature in `s^-2`, the
  code gives `m^-2` (`SI_units_psi`), and `hdot` comes out in `1/m` while times are in seconds, so it
  is not the time derivative of `h` (`SI_units_hdot`).
* C19, `scri/SpEC/file_io/__init__.py:190-199`: the type name "h" occurs in ".h5"
  (`h5_name_never_psi`); `scri/extrapolation.py:217-245`: any "h" in the prefix wins
  (`datatype_any_h`).
* C51, `scri/waveform_base.py:486-516`: `rhdot` is the descriptor with and without the mass scaled
  out (`descriptor_collision`).
* C13, `scri/rotations.py:284-343`: with one rotor stored, a series of rotors makes the frame an array of
  shape `(n_times, 1)` (`one_rotor_frame_then_series`), and the next series one of shape
  `(n_times, n_times)` (`matrix_frame_then_series`).  The check for arrays of two dimensions raises
  `IndexError` while formatting its message (`matrix_argument`).  A tuple of rotors is ignored silently
  (`other_argument`).
* C12, `scri/rotations.py:106-111` `to_inertial_frame`: raises after a constant rotation followed by a
  series (`inertial_fails_after_const_then_series`), and on every waveform without a frame
  (`to_inertial_without_frame`).
* C21, `scri/mode_calculations.py:177` `_LLComparisonMatrix`: the `[1, 2]` entry is added to `[1, 1]` and
  `[1, 2]` stays zero (`LLComparison_wrong`, `LLComparison_differs`).
* C23, `scri/flux.py:33` and `:81`: a generator that yields nothing (`j_plus` on modes with only `ell = 0`) makes
  `zip(*...)` fail to unpack instead of giving zero (`empty_operator`), and a waveform with a single mode fails
  in the slicing (`expectation_one_mode`).
* C53, `scri/mode_calculations.py:332` `_LLDominantEigenvector`: a row is flipped when its distance from the
  previous one exceeds its own length, that is when the dot product is below 1/2, not 0; axes 60 to 90 degrees apart are put
  on opposite sides (`dominant_not_continuous`).  A negative `RoughDirectionIndex` turns the row it names twice
  (`dominant_negative_index`).
* C24, `scri/utilities.py:16-28`: the loops have no bound, so an array that does not reach `x1` is read past its
  end (`transition_not_reached`; the function is compiled without bounds checks).  Because of the cutoff at `maxexp` the values
  just above `x0` equal `y0` and the function jumps where the cutoff begins (`transition_jump`, by less than
  `exp(-700)` of the step).
* C25, `scri/utilities.py:189` `transition_to_constant`: the integral starts at the first sample inside `(t1, t2)` rather than at
  `t1`, so a constant function `b` becomes `b` times the transition function at that sample
  (`to_constant_of_constant`, `to_constant_loses_constant`); it is preserved only if that sample lies in the
  cutoff (`to_constant_of_constant_partial`).
* C28, `scri/extrapolation.py:1239-1443` `_Extrapolate`: with `Omegas` the function calls the array `LM` and raises `TypeError`
  (`extrapolate_omegas`); with `NoiseFloor` for psi0 or psi1 it reads `Re` before setting it (`extrapolate_noise_floor`); waveforms of
  different shapes raise `KeyError` while formatting the message of the `ValueError` (`extrapolate_mismatch`); the length of
  `Radii[0]` is never checked.
* C29, `scri/extrapolation.py:1171-1236` `RunExtrapolation`: `.started` is touched before stale markers are removed, so a
  finished run whose rerun is killed in between looks finished (`killed_rerun_not_listed`).  In the command line `.format` applies only to the
  second of two concatenated strings, so that `python Extrapolate_{0}.py` is run literally, never the script that was written
  (`command_runs`, `command_runs_script_iff`).  A call that fails with an exception returns 0 (`exception_returns_zero`); an exception after
  `.finished` has been written leaves both markers (`finished_and_error`).  Data that change during the run are not noticed
  (`newer_misses_change_during_run`).
* C44, `scri/SpEC/file_io/corotating_paired_xor.py:44-45`: with tolerance zero nothing is XORed or paired, but `load` undoes both,
  so that all data come back wrong (`zero_tolerance`, `zero_tolerance_corrupts`) and the frame is not checked
  (`zero_tolerance_frame`).  `load(ignore_validation=True)` without the JSON file raises `UnboundLocalError` (`missing_json`).  The flags for scaled
  mass and radius are not stored (`flags_lost`).
* C42: a message with both `#major` and `#patch` gives `patch` (`smaller_wins`); this is what the code's order says.
* C34, `scri/asymptotic_bondi_data/bms_charges.py:14` `mass_aspect`: `truncate_ell=0` is false, so nothing is truncated (`massAspect_zero_not_truncated`, `massAspect_truncated_partial`).  `supermomentum(integrated=True)` is
  documented as `-(1/4π) ∫ Ψ Y dΩ`; the code returns the conjugate times `√(4π)`, so that the weight with `ell = 0` is the energy (`integrated_energy`).
* C37, C36: `spin_matrix_to_Lorentz` drops `ell_max` (the result always has 12). So for `ell_max < 12` reordering to an order in which the supertranslation is not first, or from
  boost, rotation, supertranslation, raises `ValueError` (`reorder_small_fails`, `reorder_ok_iff`), and so do `g.inverse() * g` and `g * g.inverse()` (`inverse_mul_small_fails`).
* C37: an order with the three names and a further or repeated name raises `UnboundLocalError`, not `ValueError` (`reorder_unknown_order`).
* C36: the docstring of `__mul__` says that `other` is applied second; as maps of the coordinates it is applied first (`mul_composes`), as the tutorial says. In the normal order
  supertranslation, rotation, boost the boost is applied before the rotation (`product_of_parts`, `listed_order_is_not_order_of_application`): its velocity is that in the frame before the
  rotation, while the tutorial says that it is the velocity in the rotated frame.
* C36: a transformation with rotor -1 (which is the same rotation as 1) cannot be inverted, reordered or multiplied (`minus_one_fails`).
* C38: the integrals run between the samples nearest to the ends of the window, but the formulas use the ends themselves: a center of mass at rest is not fitted by
  rest (`fit_of_rest_is_wrong`). The fit is right if the window ends at samples and the number of samples is odd (`estimate_optimal_partial`). With an even number of samples a body at rest is found exactly (`rest_found`), but uniform motion is not: with two samples the velocity is three times too large (`two_samples`).
* C38: for two black holes `com_motion` does not use the masses that are passed (`bbh_masses_ignored`), although its documentation says that the file is used only if they are not.
* C39: for a spin that is antiparallel to z, or zero, `rotation_from_spin_charge` makes a rotor of nan (`spin_rotor_nan`).
* C49: `𝔇` and `𝔇inverse` leave modes beyond the given `ell_max` as they are (`D_beyond`).
* C50: `MT_to_WM` has the default `dataType=scri.h` whatever the spin weight of its argument is, so the way back with `WM_to_MT` sets modes to 0: a function of spin weight 0 loses its monopole (`default_type_loses_modes`).
* C41: `map_to_superrest_frame` raises UnboundLocalError if `N_itr_maxes["superrest"]` is 0 (`superrest_no_iterations`) and never returns if no mean error is finite (`superrest_nan`); the solvers return the identity in these cases (`no_iterations`).
* C41: with a target and an order that ends with `time_phase`, `rel_err` is a number, the tolerances are never compared, and all allowed passes are made (`superrest_time_phase_never_stops`).
* C41: a name in `order` that is not known, or `time_phase` without a target, applies the transformation found before it a second time (`superrest_unknown_repeats`), or raises UnboundLocalError if it is the first (`superrest_unknown_first`); an empty order with a target raises IndexError (`superrest_empty_order`).
* C47: `truncate` makes nan of all data at a time where they are all 0 (`zero_row_nan`), and of everything with a negative tolerance (`negative_tol_nan`).
* C47: calling `truncate(tol)` twice is not the same as calling it once, for arbitrarily small `tol` (`twice_differs`).
* C43: `np.allclose` broadcasts, so `_allclose` reports a waveform without a frame equal to one with an arbitrary constant frame (`frame_ignored`); attributes only the other has are ignored (`extra_ignored`), attributes it lacks raise KeyError (`missing_raises`).
* C59: `compare` raises AttributeError if a frame is constant (`constant_frame_raises`: `np.quaternion.squad` and `np.quaternions` do not exist), and returns no frame if exactly one waveform has a frame that changes in time, or only the other one has a frame (`frame_dropped`; the branch in lines 656-658 repeats the test of line 650).
* C59: `min_time_step` and `min_time` are not used (`times_ignored`).
* C59: only the number of modes is tested: ℓ ≤ 3 against 3 ≤ ℓ ≤ 4 subtracts (4, −4) from (0, 0) (`wrong_modes`).
* C60: `transform` neither applies nor keeps the stored frame of a waveform of inertial type (`frame_ignored`; the source has a TODO in line 464).
* C61: the result of `transform` has the default `multiplication_truncator`, whatever that of the data was (line 417); not part of the model.
* C62: waveforms with different times are rejected with a `TypeError`, not with the `ValueError` and message that are intended: `list(WMs.keys())[i]` is evaluated with a string `i` (lines 593-596; `create_times`).
* C62: with `convention="Moreschi-Boyle"` the factor for the strain is 1, so `sigma = bar(h)`, and the property `h = 2 bar(sigma)` of the object is twice the strain that was given (lines 619-657; `strain_moreschi`).
* C62: `t_interpolate[idx1:idx2]` (lines 661-663) leaves out the requested times that are nearest to both ends of the data even where no extrapolation is needed: asked for the times of the data it leaves out the first and the last (`select_own`).
* C66: `boost_flux` of data with the origin of time shifted by tau changes by tau/4 times `momentum_flux`, where the flux of a charge `K - u P` would change by tau times it (`boost_flux_shifted`): its normalisation is a quarter of that of `momentum_flux`.
* C69: `boost_flux` has the opposite sign to the other fluxes and a quarter of their normalization: the boost charge changes at the rate `+4 boost_flux`, while energy, momentum and angular momentum change at minus the rate of their fluxes (`boost_balance_partial`, and `boost_flux_not_rate` for a shear with one mode).
* C70: `to_file` does not check names before it writes: with a group called like one of its datasets, a later `to_file` to the root of the file raises after some of the datasets are written (`reserved_group_half_written`).
* C71: `is_close_to` ignores `order` (`order_is_ignored`), distinguishes `q` from `-q` (`sign_of_rotor`), raises `ValueError` for different `ell_max` (`different_ell_max_raises`), and is not symmetric (`not_symmetric`).
* C72: after `abd2 = abd.copy()`, changing `abd2.t` does not change `abd2.psi0.t` … `abd2.sigma.t` (`copy_series_keep_times`), changing `abd.t` does (`original_changes_copy`), and `abd2.sigma.t = x` changes `abd.t` (`copy_changes_original`); `abd2.interpolate` then uses the wrong times (`shifted_copy_interpolates_wrong`).  `interpolate` does not keep `multiplication_truncator` (`interpolate_loses_truncator`); `time_translation` keeps neither it nor `frame` and `frameType` (`translate_spec`).
* C73: `ModesTimeSeries.interpolate(..., out=array)` raises for every array of more than one element (`out or np.empty`, line 85; `out_raises`).  Times given as integers become tiny numbers (`np.asarray(time).view(float)`, line 32; `integer_times`), also the new times of `interpolate` (`interpolate_integer_times`).  `len(args) > 2` (line 22) lets two positional arguments through and ignores both (`two_positional_ignored`).
* C74: `write_to_h5` does not write the frame in its default format, so that a corotating waveform is read back as corotating without a frame (`frame_lost`); files in the other format cannot be read (`other_format_unreadable`); `VersionHist.ver` is written to the group but read from the root (`version_lost_in_group`); `read_from_h5` filters times to make them monotonic, but then compares the unfiltered length (line 272) and raises (`non_monotonic_unreadable`).
* C75: the documentation of `align_decomposition_frame_to_modes` says that the phase of the (2,2) mode is zero afterwards; the code makes the phases of (2,2) and (2,-2) equal, and e.g. leaves `π/4` for modes `1` and `i` (`phase_not_zero`).
* C76: `corotating_frame` takes the rough direction at index `max(0, i1 - 10) + 10`, which does not exist for waveforms with 10 times or fewer: any `z_alignment_region` then raises `IndexError` (`region_fails_short`).
* C77: `bondi_angular_momentum` is not invariant under proper supertranslations of data without radiation (`bondi_not_invariant`); this is known physics, not a defect, and is what `CWWY_angular_momentum` is for.
* C78: `constant_waveform` and `single_mode` drop their keyword arguments (`kwargs_ignored`); `single_mode` and the waveforms with one mode put data for `ell < ell_min` or `|m| > ell` into another mode (`single_mode_wrong`, `below_wrong`); the times can exceed `t_1` (`times_beyond`); the documented default translation `[1, 0, 0]` is not applied (`no_translation`).
* C78: `create_fake_finite_radius_strain_h5file` adds the terms of each radius to a view of the asymptotic data, so data at one radius contain those of the radii before (`second_radius_wrong`, `radii_dependent`), are not the documented polynomial in `1/r` with two or more terms (`two_terms_wrong`), and `mass_ratio` is ignored (`mass_ratio_ignored`).
* C79: `r_vector` is computed by treating the values of the harmonics as if they were modes: its y component has the wrong sign (`rVector_spec`). The conformal factor is `M / (E - p·n)` exactly where `p_y n_y = 0` (`conformal_iff`); for energy 2 and momentum 1 along y it is 1/√3 in that direction instead of √3 (`conformal_wrong`).
* C79: with a target that has no supermomentum with `ell ≥ 2`, the relative error is 0/0 in each pass and the supertranslation returned is 0, although the right one is computed (`target_at_rest_nan`).
* C79: the passes for the superrest frame solve a fixed-point equation whose factor for `ell = 2` is rate/6: for data that lose energy into all directions alike at a rate of 6 or more no number of passes makes the error smaller than a mode with `ell = 2` (`radiating_fails`); below that it shrinks geometrically (`radiating_converges`).
* C79: an `ell_max` larger than that of the supermomentum is an `IndexError` (`larger_ell_max`); with a smaller one, values in other directions are taken (`smaller_ell_max`).
* C80: `map_to_abd_frame` raises `UnboundLocalError` if `N_itr_maxes["abd"]` is 0 or if no error is finite (`abd_no_iterations`, `abd_nan`); with one time in the window the error of equal data is nan (`rel_err_single`). Its message on the achieved tolerance can never be printed, as the loop has no test for one.
* C83 (`integers_rejected`): integers in `CoordRadii`, documented as indices of the waveforms to use, always raise: the regular expression is searched in the integers instead of the names (extrapolation.py lines 468-471).
* C83 (`wrong_outer`): `CoordRadii` given as strings is not reordered with the waveforms, which stay in the order of the file, so for radii in another order the frame of another waveform, here the innermost, is used for the extrapolation (lines 473-475, 708-715).
* C83 (`not_rotated`): a pattern that finds two waveforms makes the lists of different lengths; the waveforms beyond the length of `CoordRadii` are not taken to the common frame before they are extrapolated (lines 708-709, 784-786).
* C83 (`rpxmb_rejected`): the formats of the rpxmb family are compared with the list of rpdmb formats, so that every rpxmb file is rejected (line 310).
* C83 (`pick_constant_mass`): for a constant sum of masses over an odd number n of times the mass that is picked is too small by 1/(2n), because numpy widens the empty range by one half on both sides and the left end of the bin is returned (lines 22-23); for one time it is too small by 1/2.
* C83 (`different_modes_pass`): modes of degrees below the spin weight are not counted, so that waveforms with different modes pass the validation (lines 155-162).
* C85 (`wrong_error`): `from_sxs` builds the message for a wrong number of rotors from `self`, which does not exist in a class method: a `NameError` instead of the intended `ValueError` (waveform_modes.py line 198).
* C85 (`attributes_lost`): `extrapolate_coord_radii`, `space_translation` and `boost_velocity` become entries of the list of modifications in `to_sxs`, and are not restored by `from_sxs` (lines 245-260, 171-186).
* C85 (`history_of_the_original_changes`): the history list is passed by reference in both directions, and the constructor appends to it in place; converting a waveform back adds lines to the history of the original (lines 167, 225; waveform_base.py lines 226, 725).
* C86 (`stretch_refused`): a `merger_stretch` that is given is refused with a `ZeroDivisionError` if `t_ringdown = t_merger`, because the default value is computed first (plotting.py line 20).
* C87 (`wrong_directory`): the beginning of the file name is replaced everywhere in the path, so that the auxiliary waveforms of data in a directory whose name contains it, too, are looked for in another directory (com_motion.py line 449).
* C87 (`run_spec`): in the NRAR format the corrected data are written before the version history and the radii are put back, so that the file has none; in the RPXMB format it has (lines 463-488).
* C87 (`masses_not_read`): if `path_to_matter_h5` is given, the masses are not read from the metadata, contrary to the documentation (lines 386-393).
* C87 (lines 456-459): the message of the `FileNotFoundError` contains the text `{aux_path}` itself, because its second part is not an f-string.
* C88 (`missing_refused`, `sparse_refused`): the reader needs every mode between the least and the largest degree; files with a selection of modes, which the format allows, are refused with a `KeyError` (LVC/file_io.py lines 27-35).
* C90 (`wrong_subdirectory`): the name of the top directory and a slash are removed everywhere in the path, so that the data in `data/extradata/Lev3` are reported as in `extraLev3` (extrapolation.py lines 1146-1166).
* C90 (`trailing_slash`, `top_itself`): for a top directory with a slash at its end, or one that is a Lev directory itself, the whole path is reported as the subdirectory.
* C90 (`empty_braces`): a template with `{}`, such as a script with an empty dictionary, makes `_safe_format` raise an `IndexError`, although it "doesn't mind missing arguments"; `RunExtrapolation` has then already made the `.started` file.
* C90 (`escaped_braces`): doubled braces survive one call only.
* C93 (`precession_fast`): `precession_relative_rate` divides the phase, so the default 0.1, "fraction of the magnitude of the orbital angular velocity at which it precesses", makes the precession ten times faster than the orbit (sample_waveforms.py line 499).
* C93 (`nutates_after`, `not_settled`): the nutation is switched on at merger instead of off, and never ends: no nutation before merger, and no "settling down to a constant direction" after it (line 500).
* C93 (`opening_negative`, `opening_rate`): the angle of the cone is linear in `t`, not in `t - t_0`, so that for negative times it starts below minus the opening angle and the cone closes first; its default rate has the end of the transition to the ringdown in place of the documented `t_merger` (lines 490, 494-498).
* C93 (`chirp_iff`, `not_chirp`): the frequency is `4 nu` times that of leading-order post-Newtonian theory (line 463).
* C93 (`last_time`): the last time need not be `t_1`.
* C95 (`too_many_cells`, `columns_shifted`): `estimate_avg_com_motion` returns both ends of the window, so that each line of `BMSTransformations.csv` has eleven cells for ten names; read with `pandas.read_csv`, as the script says, `x0` has the values of y, `y0` those of z and so on (find_com_in_catalog.py lines 27, 46).
* C95 (`no_row_twice`): a path with a second `Lev` in it is silently left out (line 26).
* C95 (`never_written`): `remove_avg_com_from_catalog.py` passes the path as the first positional argument of `remove_avg_com_motion`, which is the waveform `w_m`; every call raises, the exception is caught, and no corrected waveform is ever written (lines 16-28).
* C98: the random sample waveforms are seeded with `hash("random_waveform")`, which python salts in every run: two runs of a program give different data (`not_reproducible`). The call overwrites numpy's global seed, so the caller's own later random numbers repeat (`caller_repeats`).
* C98: both random waveforms ignore (with a warning) the keywords that their documentation says are passed to `modes_constructor` (`others_ignored`, `ell_max_ignored`), and `t` without `uniform_time`. The recorded constructor statement has lost the keywords that were used (`statement_wrong`), and for the one proportional to the time it names the other function (`statement_name`).
* C99: `transform` makes its result with the default `multiplication_truncator`, so that data made by `from_initial_values` (truncator `max`) lose theirs: with a single (2, 2) mode in `psi2` and `sigma`, the norm of the first Bianchi identity is 0 before the transformation without any parameters, and not 0 after it (`truncator_lost`).
* C99: the documentation of `bondi_violation_norms` says that the squared magnitude is integrated; the code returns the root of the integral (`norms_spec`).
* C100: `interpolate` raises `IndexError` for a waveform with a constant frame given by one rotor, a form of the frame that the constructor allows (`one_rotor_fails`).
* C100: `energy_flux` of a strain differentiates the modes in the frame of the waveform. In a corotating frame the modes of a circular binary are constant and the flux is 0, though the field radiates (`rotating_flux_lost`); the frame type is not looked at.
* C101: `rotation_to_map_to_superrest_frame` computes the target angular velocity from `ModesTimeSeries(target_strain.data_dot).dot`, the second derivative of the strain (labelled `hdot`), and compares it with that of the news of the data, the first derivative. For a strain with a (2, 2) mode of amplitude 4 and frequency 2 and a (2, -2) mode of amplitude 1 and frequency 4 the two angular velocities are opposite, so that data with their own strain as the target are turned upside down, with error 0 (`own_strain_upside_down`).
* C103: `rel_err_for_abd_in_superrest` divides the spin by its norm. If the spin vanishes at one time, as for data without rotation, the error is nan; `nan < inf` is false, so no transformation is ever recorded as the best, and `map_to_superrest_frame` raises UnboundLocalError after all its iterations (`spinless_never`).
* C104: the window of `map_to_superrest_frame` reaches `padding_time + 200` to both sides of `t_0`, 200 more than documented, so that the charges are averaged over a longer time (`window_spec`).
* C103: with a target strain, `rel_err_for_abd_in_superrest` takes the derivative of `target_strain.data_dot` and compares the angular velocity of this second derivative with that of the news of the data. For data with their own strain as the target the error of the rotation can be positive (`own_strain_error`), so the tolerance is not reached although nothing is to be turned.
* C105: the documentation of `rotation_to_map_to_superrest_frame` says that the spin is aligned with the positive or negative z axis, depending on which it is closest to. The code always aligns it with the positive one (`tilted_partial`), and fails for a spin along -z, because the rotor is nan (`antiparallel_raises`; for objects away from the origin, `displaced_antiparallel_raises`).
* C108: `AsymptoticBondiData.transform`, `BMSTransformation(...)` and `LorentzTransformation(...)` silently ignore keyword arguments they do not know: misspelled names, and names that `WaveformModes.transform` takes (`ell_max`, `n_theta`, `n_phi`). The transformation is then carried out without them (`abd_ignored`, `bms_ignored`). `constant_waveform` and `single_mode` document that further keywords are passed to `modes_constructor`, but only warn about them.
* C109: `WaveformGrid(g)` raises an `AssertionError` for every consistent grid waveform `g` with points, because the constructor takes `n_theta` and `n_phi` from the keywords (default 0) even when it copies an object (`grid_copy_raises`). `WaveformGrid.copy_without_data` keeps `n_theta` and `n_phi` with data of shape (0, 0), so that the result fails its own `ensure_validity` (`grid_without_inconsistent`).
