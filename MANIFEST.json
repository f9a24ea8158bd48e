{
 "claims": [
  {
   "property": "C01",
   "status": "proved",
   "theorems": [
    "Verif.Props.Xor.xor_timeseries_spec",
    "Verif.Props.Xor.xor_timeseries_reverse_spec",
    "Verif.Props.Xor.xor_reverse_xor",
    "Verif.Props.Xor.xor_xor_reverse"
   ],
   "note": "Words are BitVec 64; both the encoder and decoder loops are modelled and shown inverse for every number of rows and columns."
  },
  {
   "property": "C02",
   "status": "proved",
   "theorems": [
    "Verif.Props.Multishuffle.unshuffle_shuffle",
    "Verif.Props.Multishuffle.shuffle_unshuffle"
   ],
   "note": "Both compositions are the identity for every admissible shuffle_widths and every array."
  },
  {
   "property": "C03",
   "status": "proved",
   "theorems": [
    "Verif.Props.Multishuffle.multishuffle_rejects",
    "Verif.Props.Multishuffle.shuffle_layout"
   ],
   "note": "The refusal conditions and the bit layout of the packed stream."
  },
  {
   "property": "C04",
   "status": "proved",
   "theorems": [
    "Verif.Props.Fletcher.fletcher32_no_overflow",
    "Verif.Props.Fletcher.fletcher32_eq_checksum",
    "Verif.Props.Fletcher.fletcher32_range",
    "Verif.Props.Fletcher.block_361_overflows"
   ],
   "note": "The 32-bit accumulators never wrap with 360-word blocks; with 361-word blocks an explicit input makes one wrap."
  },
  {
   "property": "C05",
   "status": "proved",
   "theorems": [
    "Verif.Props.Fletcher.checksum_eq_iff",
    "Verif.Props.Fletcher.fletcher32_single_word",
    "Verif.Props.Fletcher.fletcher32_adjacent_swap",
    "Verif.Props.Fletcher.fletcher32_misses_zero_ones"
   ],
   "note": "Detection of single-word changes and adjacent swaps, and the one undetected substitution 0x0000 <-> 0xffff."
  },
  {
   "property": "C06",
   "status": "proved",
   "theorems": [
    "Verif.Props.Monotonic.monotonicIndices_ok_iff",
    "Verif.Props.Monotonic.mem_monotonicIndices_increasing",
    "Verif.Props.Monotonic.mem_monotonicIndices_decreasing",
    "Verif.Props.Monotonic.monotonize_increasing",
    "Verif.Props.Monotonic.monotonize_decreasing",
    "Verif.Props.Monotonic.monotonize_id_increasing",
    "Verif.Props.Monotonic.monotonize_id_decreasing",
    "Verif.Props.Monotonic.monotonize_idempotent"
   ],
   "note": "The SpEC reader's filter."
  },
  {
   "property": "C07",
   "status": "proved",
   "theorems": [
    "Verif.Props.Modes.mem_LM",
    "Verif.Props.Modes.LM_nodup",
    "Verif.Props.Modes.LM_length",
    "Verif.Props.Modes.LM_index",
    "Verif.Props.Modes.index_LM",
    "Verif.Props.Modes.indices_eq_index",
    "Verif.Props.Modes.indices_rejects",
    "Verif.Props.Modes.index_unchecked"
   ],
   "note": "index(ell, m) makes no range check, which index_unchecked shows."
  },
  {
   "property": "C08",
   "status": "proved",
   "theorems": [
    "Verif.Props.ConjPairs.convert_to_conjugate_pairs_spec",
    "Verif.Props.ConjPairs.convert_from_to",
    "Verif.Props.ConjPairs.convert_to_from",
    "Verif.Props.ConjPairs.convert_to_conjugate_pairs_norm"
   ],
   "note": "The in-place double loop over any ell range, data in the complex numbers."
  },
  {
   "property": "C09",
   "status": "proved",
   "theorems": [
    "Verif.Props.Parity.conjugate_ok_iff",
    "Verif.Props.Parity.conjugate_refuses",
    "Verif.Props.Parity.conjugate_spec",
    "Verif.Props.Parity.conjugate_involutive",
    "Verif.Props.Parity.symmetricPart_spec",
    "Verif.Props.Parity.antisymmetricPart_spec",
    "Verif.Props.Parity.parity_decomposition",
    "Verif.Props.Parity.frame_decomposition",
    "Verif.Props.Parity.conjugate_xyz",
    "Verif.Props.Parity.single_mode_refused"
   ],
   "note": "All four parity operations and their projections, data and frame."
  },
  {
   "property": "C10",
   "status": "proved",
   "theorems": [
    "Verif.Props.Ladder.ladder_factor_list_NP",
    "Verif.Props.Ladder.ladder_factor_string_NP",
    "Verif.Props.Ladder.ladder_factor_GHP",
    "Verif.Props.Ladder.ladder_factor_rejects",
    "Verif.Props.Ladder.ladder_factor_rejects_list",
    "Verif.Props.Ladder.ladder_factor_rejects_convention",
    "Verif.Props.Ladder.factor_append",
    "Verif.Props.Ladder.ethbar_eth",
    "Verif.Props.Ladder.eth_commutator",
    "Verif.Props.Ladder.factor_annihilates",
    "Verif.Props.Ladder.apply_eth_spec"
   ],
   "note": "Operation strings of any length in every accepted spelling."
  },
  {
   "property": "C100",
   "status": "partial",
   "theorems": [
    "Verif.Props.WaveSpline.derivatives_spec",
    "Verif.Props.WaveSpline.refused",
    "Verif.Props.WaveSpline.cubic_exact",
    "Verif.Props.WaveSpline.interpolate_same",
    "Verif.Props.WaveSpline.uniform_rotation",
    "Verif.Props.WaveSpline.one_rotor_fails",
    "Verif.Props.WaveSpline.constant_frame_flux",
    "Verif.Props.WaveSpline.rotating_flux_lost"
   ],
   "note": "Proved but for two cases that are refuted: a waveform with a constant frame of one rotor cannot be interpolated, and the energy flux of a strain in a corotating frame leaves out the rotation."
  },
  {
   "property": "C101",
   "status": "partial",
   "theorems": [
    "Verif.Props.TargetRotation.aligned",
    "Verif.Props.TargetRotation.rotated_copy_partial",
    "Verif.Props.TargetRotation.own_strain_upside_down"
   ],
   "note": "The target strain is differentiated twice and the strain of the data once. So the claim is proved for the angular velocity of the second derivative (aligned) and for targets that turn uniformly (rotated_copy_partial), and refuted in general: with their own strain as target, data are turned upside down."
  },
  {
   "property": "C102",
   "status": "proved",
   "theorems": [
    "Verif.Props.Phase.polar",
    "Verif.Props.Phase.steps",
    "Verif.Props.Phase.follows",
    "Verif.Props.Phase.zero_amplitude"
   ],
   "note": "zero_amplitude shows that the claim on the phase cannot be extended to amplitudes that vanish at a single time."
  },
  {
   "property": "C103",
   "status": "partial",
   "theorems": [
    "Verif.Props.FrameErrors.errors_spec",
    "Verif.Props.FrameErrors.spinless_never",
    "Verif.Props.TargetError.rotation_error_spec",
    "Verif.Props.TargetError.target_errors",
    "Verif.Props.TargetError.own_strain_error"
   ],
   "note": "All three errors are characterized, without (errors_spec) and with a target strain (target_errors). The claim is refuted for data whose spin vanishes at some time: the error of the rotation is nan, no iterate is ever better than infinity, and map_to_superrest_frame always raises an exception (spinless_never). With a target strain the news of the data are compared with the second derivative of the target, so that data compared with their own strain have a positive error (own_strain_error)."
  },
  {
   "property": "C104",
   "status": "proved",
   "theorems": [
    "Verif.Props.SuperrestMap.already",
    "Verif.Props.SuperrestMap.sound",
    "Verif.Props.SuperrestMap.window_spec"
   ],
   "note": "The product of BMS transformations and the transformation of data are parameters that respect the identity and undo time translations (Group); for the code that is C36, C61 and C97. The window of times reaches 200 further than the documented padding_time (window_spec)."
  },
  {
   "property": "C105",
   "status": "partial",
   "theorems": [
    "Verif.Props.TiltedSpin.tilted_partial",
    "Verif.Props.TiltedSpin.antiparallel_raises",
    "Verif.Props.DisplacedDown.displaced_antiparallel_raises"
   ],
   "note": "Proved for all directions but -z, with the positive z axis in all cases (tilted_partial). The promise of the documentation that a spin closer to -z is aligned with -z is refuted: it is turned to +z by tilted_partial, and for a spin exactly along -z an exception is raised (antiparallel_raises), also if the object is not at the origin (displaced_antiparallel_raises)."
  },
  {
   "property": "C106",
   "status": "proved",
   "theorems": [
    "Verif.Props.Displaced.displaced"
   ],
   "note": "The product of BMS transformations and the transformation of data are parameters, with their laws for translations and rotations (Frames); the charges in the translated and rotated frames are computed from the model of the charges (C77, C81)."
  },
  {
   "property": "C107",
   "status": "proved",
   "theorems": [
    "Verif.Props.Warped.warped"
   ],
   "note": "The product of BMS transformations and the transformation of data are parameters, with their laws for supertranslations, translations and rotations (Warps); the supermomentum and the charges in the supertranslated frames are computed from the model (C77, C79, C81)."
  },
  {
   "property": "C108",
   "status": "partial",
   "theorems": [
    "Verif.Props.Keywords.constructors_heard",
    "Verif.Props.Keywords.transform_heard",
    "Verif.Props.Keywords.files_heard",
    "Verif.Props.Keywords.samples_heard",
    "Verif.Props.Keywords.transform_uses",
    "Verif.Props.Keywords.constructors_use",
    "Verif.Props.Keywords.transformations_use",
    "Verif.Props.Keywords.samples_use",
    "Verif.Props.Keywords.weyl_scalars",
    "Verif.Props.Keywords.abd_ignored",
    "Verif.Props.Keywords.bms_ignored",
    "Verif.Props.Keywords.abd_not_heard",
    "Verif.Props.Keywords.bms_not_heard",
    "Verif.Props.Keywords.abd_heard_partial",
    "Verif.Props.Keywords.bms_heard_partial",
    "Verif.Props.KeywordsFiles.abd_files_used",
    "Verif.Props.KeywordsFiles.abd_formats",
    "Verif.Props.KeywordsFiles.read_used"
   ],
   "note": "Missing: AsymptoticBondiData.transform, BMSTransformation and LorentzTransformation take no notice of names they do not know (abd_ignored, bms_ignored; refuted in abd_not_heard, bms_not_heard). The values of the arguments are opaque."
  },
  {
   "property": "C109",
   "status": "partial",
   "theorems": [
    "Verif.Props.CopyConstruct.base_copy",
    "Verif.Props.CopyConstruct.modes_copy",
    "Verif.Props.CopyConstruct.copy_method",
    "Verif.Props.CopyConstruct.grid_copy_raises",
    "Verif.Props.CopyConstruct.grid_copy_partial",
    "Verif.Props.CopyConstruct.modes_without",
    "Verif.Props.CopyConstruct.grid_without_inconsistent"
   ],
   "note": "Missing: grid waveforms, of which it is false: WaveformGrid(g) raises for every consistent g with points (grid_copy_raises) and works only with n_theta and n_phi passed again (grid_copy_partial); a grid copied without data is not consistent (grid_without_inconsistent)."
  },
  {
   "property": "C11",
   "status": "proved",
   "theorems": [
    "Verif.Props.Rotation.constant_rotation",
    "Verif.Props.Rotation.constant_frame",
    "Verif.Props.Rotation.rotate_rotate",
    "Verif.Props.Rotation.rotate_inverse",
    "Verif.Props.Rotation.rotate_power",
    "Verif.Props.Rotation.rotate_norm",
    "Verif.Props.Rotation.rotate_no_mixing",
    "Verif.Props.Rotation.rotate_physical"
   ],
   "note": "For the documented formula of the Wigner matrices, proved to be a unitary representation in Lemmas/Wigner; exact arithmetic."
  },
  {
   "property": "C110",
   "status": "proved",
   "theorems": [
    "Verif.Props.Rpxmb.load_saved",
    "Verif.Props.Rpxmb.corrupt_raises",
    "Verif.Props.Rpxmb.wrong_frame_not_saved"
   ],
   "note": "sxs.rpxmb is another package and a parameter: that it stores a version V of the waveform is the hypothesis of load_saved."
  },
  {
   "property": "C12",
   "status": "partial",
   "theorems": [
    "Verif.Props.Rotation.inertial_invariant_partial",
    "Verif.Props.Rotation.to_inertial_frame",
    "Verif.Props.Rotation.to_inertial_undoes_partial",
    "Verif.Props.Rotation.inertial_fails_after_const_then_series",
    "Verif.Props.Rotation.to_inertial_without_frame"
   ],
   "note": "Holds for every history in which no series is applied while a single rotor is stored; that case is shown to break to_inertial_frame for all inputs."
  },
  {
   "property": "C13",
   "status": "partial",
   "theorems": [
    "Verif.Props.Rotation.frame_shapes_partial",
    "Verif.Props.Rotation.frame_const",
    "Verif.Props.Rotation.series_ok",
    "Verif.Props.Rotation.series_wrong_length",
    "Verif.Props.Rotation.one_rotor_frame_then_series",
    "Verif.Props.Rotation.matrix_frame_then_series",
    "Verif.Props.Rotation.matrix_argument",
    "Verif.Props.Rotation.other_argument"
   ],
   "note": "All combinations are settled; the property is false for a single stored rotor and a series, for two-dimensional arrays and for other objects."
  },
  {
   "property": "C14",
   "status": "partial",
   "theorems": [
    "Verif.Props.History.history_append_only",
    "Verif.Props.History.method_restores_depth",
    "Verif.Props.History.session_script",
    "Verif.Props.History.session_inner",
    "Verif.Props.History.enter_eq",
    "Verif.Props.History.returns_spec",
    "Verif.Props.History.copy_returns",
    "Verif.Props.History.deepcopy_returns",
    "Verif.Props.History.getitem_returns",
    "Verif.Props.History.parityConjugate_returns",
    "Verif.Props.History.paritySymmetricPart_returns",
    "Verif.Props.History.to_inertial_frame_not_recorded",
    "Verif.Props.History.truncate_not_recorded",
    "Verif.Props.History.raise_leaks_depth",
    "Verif.Props.History.after_raise_nothing_recorded",
    "Verif.Props.History.exceptions_break_script"
   ],
   "note": "Proved for methods that return and that decrement the depth.  False when a wrapped method raises (the depth is never restored) and for methods that append without decrementing; both failures are theorems."
  },
  {
   "property": "C15",
   "status": "partial",
   "theorems": [
    "Verif.Props.Objects.nums_increasing",
    "Verif.Props.Objects.nums_unique",
    "Verif.Props.Objects.nums_shared_across_classes",
    "Verif.Props.Objects.unpickle_collides",
    "Verif.Props.Objects.reachable_allocated",
    "Verif.Props.Objects.copy_fresh",
    "Verif.Props.Objects.copy_independent",
    "Verif.Props.Objects.construct_changes_history_argument"
   ],
   "note": "Uniqueness within a class holds for every program without unpickling; unpickling always collides with the next object, and the keyword constructor shares the caller's history list."
  },
  {
   "property": "C16",
   "status": "partial",
   "theorems": [
    "Verif.Props.Validity.base_true_iff",
    "Verif.Props.Validity.is_valid_iff",
    "Verif.Props.Validity.base_assertions_raise_iff",
    "Verif.Props.Validity.base_alter_makes_valid",
    "Verif.Props.Validity.base_alter_keeps_valid",
    "Verif.Props.Validity.modes_assertions_iff",
    "Verif.Props.Validity.modes_true_partial",
    "Verif.Props.Validity.modes_ignores_base",
    "Verif.Props.Validity.modes_accepts_bad_times",
    "Verif.Props.Validity.grid_assertions_iff",
    "Verif.Props.Validity.grid_ignores_base",
    "Verif.Props.Validity.base_accepts_empty_2d",
    "Verif.Props.ValidityRepair.modes_alter_true_partial",
    "Verif.Props.ValidityRepair.modes_alter_makes_valid",
    "Verif.Props.ValidityRepair.modes_alter_repairs",
    "Verif.Props.ValidityRepair.base_alter_repairs"
   ],
   "note": "Proved for WaveformBase and, with assertions, for WaveformModes and WaveformGrid; with alter=True a wrong list of modes, a column of times, a missing frame or one of floats and a missing history or one in a string are repaired.  Without assertions the two subclasses drop the verdict of the base class, so is_valid of a WaveformModes with repeated times is True."
  },
  {
   "property": "C17",
   "status": "partial",
   "theorems": [
    "Verif.Props.Slicing.getitem_time",
    "Verif.Props.Slicing.getitem_time_interval",
    "Verif.Props.Slicing.getitem_time_ell_partial",
    "Verif.Props.Slicing.getitem_single_ell",
    "Verif.Props.Slicing.getitem_no_modes",
    "Verif.Props.Slicing.getitem_ell_outside",
    "Verif.Props.Slicing.getitem_refuses",
    "Verif.Props.Slicing.getitem_one_tuple",
    "Verif.Props.Slicing.getitem_int_raises",
    "Verif.Props.Slicing.getitem_stop_zero",
    "Verif.Props.Slicing.getitem_start_zero",
    "Verif.Props.Slicing.getitem_few_modes",
    "Verif.Props.Slicing.getitem_constant_frame_lost"
   ],
   "note": "False of the code for ell bounds equal to 0, integer keys, objects with fewer than two columns and constant frames; each exception is a theorem, the rest is proved."
  },
  {
   "property": "C18",
   "status": "partial",
   "theorems": [
    "Verif.Props.Weights.psi_weights",
    "Verif.Props.Weights.psi_conformal_scaled",
    "Verif.Props.Weights.derivative_weights",
    "Verif.Props.Weights.sigma_h_weights",
    "Verif.Props.Weights.gamma_weight_spec",
    "Verif.Props.Weights.SI_units_idempotent",
    "Verif.Props.Weights.SI_units_times",
    "Verif.Props.Weights.SI_units_distance",
    "Verif.Props.Weights.SI_units_hdot",
    "Verif.Props.Weights.SI_units_psi",
    "Verif.Props.Weights.makeDimensionless_spec",
    "Verif.Props.Weights.makeDimensionless_refuses",
    "Verif.Props.Weights.makeDimensionless_idempotent",
    "Verif.Props.Weights.makeDimensionless_inverse",
    "Verif.Props.Weights.dimensionless_then_SI",
    "Verif.Props.Weights.finite_radius_scale_spec"
   ],
   "note": "The tables, idempotence, inverse and consistency between the three scaling routines are proved.  The documented SI units are not those of the code (metres instead of seconds), which SI_units_psi and SI_units_hdot make precise."
  },
  {
   "property": "C19",
   "status": "partial",
   "theorems": [
    "Verif.Props.DataTypes.from_to",
    "Verif.Props.DataTypes.to_injective",
    "Verif.Props.DataTypes.from_ok_iff",
    "Verif.Props.DataTypes.to_from_shared",
    "Verif.Props.DataTypes.to_from_redundant",
    "Verif.Props.DataTypes.datatype_depends_on_prefix",
    "Verif.Props.DataTypes.datatype_psi",
    "Verif.Props.DataTypes.datatype_any_h",
    "Verif.Props.DataTypes.h5_name_never_psi"
   ],
   "note": "Codes are proved.  Names are recognised by substring search: any h in the prefix wins over a Weyl scalar, and read_from_h5 sees the h of .h5."
  },
  {
   "property": "C20",
   "status": "proved",
   "theorems": [
    "Verif.Props.ModeCalc.LVector_spec",
    "Verif.Props.ModeCalc.LVector_symmetric",
    "Verif.Props.ModeCalc.LVector_real",
    "Verif.Props.ModeCalc.LVector_z",
    "Verif.Props.ModeCalc.LdtVector_spec",
    "Verif.Props.ModeCalc.L_zero_data",
    "Verif.Props.ModeCalc.L_blocks"
   ],
   "note": "Exact arithmetic, one time."
  },
  {
   "property": "C21",
   "status": "partial",
   "theorems": [
    "Verif.Props.ModeCalc.LLMatrix_spec",
    "Verif.Props.ModeCalc.LLMatrix_symmetric",
    "Verif.Props.ModeCalc.LLMatrix_psd",
    "Verif.Props.ModeCalc.LLMatrix_trace",
    "Verif.Props.ModeCalc.LLComparison_partial",
    "Verif.Props.ModeCalc.LLComparison_wrong",
    "Verif.Props.ModeCalc.LLComparison_differs"
   ],
   "note": "LLMatrix is proved.  LLComparisonMatrix is right in seven entries; [1,2] is always 0 and its value goes to [1,1]."
  },
  {
   "property": "C22",
   "status": "proved",
   "theorems": [
    "Verif.Props.Flux.energy_flux",
    "Verif.Props.Flux.energy_flux_types",
    "Verif.Props.Flux.energy_flux_nonneg"
   ],
   "note": "Exact arithmetic; the time derivative of a strain is an input."
  },
  {
   "property": "C23",
   "status": "partial",
   "theorems": [
    "Verif.Props.Flux.expectation_value_partial",
    "Verif.Props.Flux.expectation_value_times_partial",
    "Verif.Props.Flux.expectation_perm",
    "Verif.Props.Flux.expectation_rejects",
    "Verif.Props.Flux.p_z_selection",
    "Verif.Props.Flux.p_plusminus_selection",
    "Verif.Props.Flux.j_z_selection",
    "Verif.Props.Flux.j_plusminus_selection",
    "Verif.Props.Flux.operators_inside",
    "Verif.Props.Flux.operators_nonempty",
    "Verif.Props.Flux.empty_operator",
    "Verif.Props.Flux.expectation_one_mode"
   ],
   "note": "The full double sum is proved for waveforms with at least two modes and operators with at least one element; otherwise the code raises, which is proved too."
  },
  {
   "property": "C24",
   "status": "partial",
   "theorems": [
    "Verif.Props.Transition.transition_spec",
    "Verif.Props.Transition.transition_outside",
    "Verif.Props.Transition.transition_between_partial",
    "Verif.Props.Transition.transition_monotone",
    "Verif.Props.Transition.transition_antisymmetric_partial",
    "Verif.Props.Transition.transition_derivative_partial",
    "Verif.Props.Transition.tabulates_iff",
    "Verif.Props.Transition.transition_not_reached",
    "Verif.Props.Transition.transition_jump",
    "Verif.Props.Transition.bump_spec"
   ],
   "note": "For sorted arrays that reach x1; otherwise the loops read past the end, which is a theorem.  Strictness, antisymmetry and the derivative hold except where the code cuts off the exponent.  Exact reals."
  },
  {
   "property": "C25",
   "status": "partial",
   "theorems": [
    "Verif.Props.Transition.to_constant_spec_partial",
    "Verif.Props.Transition.to_constant_ok",
    "Verif.Props.Transition.to_constant_not_reached",
    "Verif.Props.Transition.to_constant_of_constant",
    "Verif.Props.Transition.to_constant_of_constant_partial",
    "Verif.Props.Transition.to_constant_loses_constant"
   ],
   "note": "Holds whenever the function returns; it does not return if t does not reach t2."
  },
  {
   "property": "C26",
   "status": "proved",
   "theorems": [
    "Verif.Props.Intersection.intersection_rejects_empty",
    "Verif.Props.Intersection.intersection_spec",
    "Verif.Props.Intersection.intersection_default_step",
    "Verif.Props.Intersection.intersection_grid",
    "Verif.Props.Intersection.intersection_single_rejected"
   ],
   "note": "Exact arithmetic on times.  The end of the window is never included, which the theorem states."
  },
  {
   "property": "C27",
   "status": "partial",
   "theorems": [
    "Verif.Props.ExMonotonic.ex_monotonic_indices_partial",
    "Verif.Props.ExMonotonic.ex_monotonic_indices_terminates_iff",
    "Verif.Props.ExMonotonic.ex_monotonic_indices_hangs"
   ],
   "note": "The property is false of the code: the loop never ends when some later sample does not exceed the first one by more than MinTimeStep; the exact termination condition and a witness are proved, and the property is proved for inputs on which it terminates."
  },
  {
   "property": "C28",
   "status": "proved",
   "theorems": [
    "Verif.Props.Extrapolate.extrapolate_spec",
    "Verif.Props.Extrapolate.fit_exact",
    "Verif.Props.Extrapolate.fit_perm",
    "Verif.Props.Extrapolate.fit_linear",
    "Verif.Props.Extrapolate.extrapolate_exact",
    "Verif.Props.Extrapolate.extrapolate_perm",
    "Verif.Props.Extrapolate.extrapolate_linear",
    "Verif.Props.Extrapolate.extrapolate_rejects",
    "Verif.Props.Extrapolate.extrapolate_omegas",
    "Verif.Props.Extrapolate.extrapolate_noise_floor",
    "Verif.Props.Extrapolate.extrapolate_mismatch"
   ],
   "note": "polyfit is assumed to return a least-squares solution in exact arithmetic.  With Omegas, and with NoiseFloor for psi0 and psi1, the function raises, which is a theorem."
  },
  {
   "property": "C29",
   "status": "partial",
   "theorems": [
    "Verif.Props.Markers.lists_right_partial",
    "Verif.Props.Markers.lists_spec",
    "Verif.Props.Markers.begun_not_unstarted",
    "Verif.Props.Markers.rerun_removes_stale",
    "Verif.Props.Markers.nonzero_errored",
    "Verif.Props.Markers.marker_injective",
    "Verif.Props.Markers.other_runs_unaffected",
    "Verif.Props.Markers.script_keeps",
    "Verif.Props.Markers.killed_rerun_not_listed",
    "Verif.Props.Markers.finished_and_error",
    "Verif.Props.Markers.exception_returns_zero",
    "Verif.Props.Markers.command_runs",
    "Verif.Props.Markers.command_runs_script_iff",
    "Verif.Props.Markers.newer_spec",
    "Verif.Props.Markers.newer_finished",
    "Verif.Props.Markers.newer_misses_change_during_run",
    "Verif.Props.MarkersNewer.changes_listed"
   ],
   "note": "Missing, because the code violates it: the moments between touching .started and removing stale markers.  Also proved: the command always runs a script called Extrapolate_{0}.py, not the one that is written."
  },
  {
   "property": "C30",
   "status": "proved",
   "theorems": [
    "Verif.Props.AbdTransform.fprime_spec",
    "Verif.Props.AbdTransform.fprime_law",
    "Verif.Props.AbdTransform.transform_spec",
    "Verif.Props.AbdTransform.time_translation",
    "Verif.Props.AbdTransform.grid_agrees",
    "Verif.Props.AbdTransform.grid_agrees_shear",
    "Verif.Props.AbdTransform.grid_missing"
   ],
   "note": "Values on the grid are given, the interpolation in time is a parameter that passes through its nodes."
  },
  {
   "property": "C31",
   "status": "proved",
   "theorems": [
    "Verif.Props.AbdTransform.mix_mix",
    "Verif.Props.AbdTransform.comp_time",
    "Verif.Props.AbdTransform.comp_e",
    "Verif.Props.AbdTransform.comp_mix",
    "Verif.Props.AbdTransform.comp_shear",
    "Verif.Props.AbdTransform.inverse_restores",
    "Verif.Props.AbdTransform.ethk_over_k",
    "Verif.Props.AbdTransform.transform_transform"
   ],
   "note": ""
  },
  {
   "property": "C32",
   "status": "proved",
   "theorems": [
    "Verif.Props.AbdTransform.slices_spec",
    "Verif.Props.AbdTransform.gridSlices_spec",
    "Verif.Props.AbdTransform.slice_average",
    "Verif.Props.AbdTransform.doppler",
    "Verif.Props.AbdTransform.aberration",
    "Verif.Props.AbdTransform.conformal_factor",
    "Verif.Props.AbdTransform.rotateVec_mul"
   ],
   "note": ""
  },
  {
   "property": "C33",
   "status": "proved",
   "theorems": [
    "Verif.Props.InitialValues.fromPoly_bondi",
    "Verif.Props.InitialValues.fromPoly_initial",
    "Verif.Props.InitialValues.fromSeries_bondi",
    "Verif.Props.InitialValues.fromSeries_initial",
    "Verif.Props.InitialValues.violations_zero",
    "Verif.Props.InitialValues.violations_detect"
   ],
   "note": "In the second branch differentiation and integration in time are exact instead of those of a spline."
  },
  {
   "property": "C34",
   "status": "proved",
   "theorems": [
    "Verif.Props.Charges.chargeVector_spec",
    "Verif.Props.Charges.vector_affine",
    "Verif.Props.Charges.vector_linear",
    "Verif.Props.Charges.massAspect_real",
    "Verif.Props.Charges.four_momentum_spec",
    "Verif.Props.Charges.rest_mass_spec",
    "Verif.Props.Charges.CoM_spec",
    "Verif.Props.Charges.angular_momentum_spec",
    "Verif.Props.Charges.massAspect_truncated_partial",
    "Verif.Props.Charges.massAspect_zero_not_truncated",
    "Verif.Props.Charges.spin_pauli_lubanski",
    "Verif.Props.Charges.supermomentum_unknown",
    "Verif.Props.Charges.supermomentum_low",
    "Verif.Props.Charges.integrated_energy",
    "Verif.Props.Charges.geroch_mean"
   ],
   "note": "`mass_aspect(0)` does not truncate, although the documentation says that an integer does. The angular momentum by Chen, Wang, Wang and Yau is not modelled."
  },
  {
   "property": "C35",
   "status": "proved",
   "theorems": [
    "Verif.Props.TransformKwargs.imposeReality_spec",
    "Verif.Props.TransformKwargs.imposeReality_isReal",
    "Verif.Props.TransformKwargs.imposeReality_id",
    "Verif.Props.TransformKwargs.translations_spec",
    "Verif.Props.TransformKwargs.ellMaxOf_spec",
    "Verif.Props.TransformKwargs.process_spec",
    "Verif.Props.TransformKwargs.process_unchanged",
    "Verif.Props.TransformKwargs.process_rest",
    "Verif.Props.TransformKwargs.process_errors",
    "Verif.Props.TransformKwargs.checkReality_spec",
    "Verif.Props.TransformKwargs.implementations_agree",
    "Verif.Props.TransformKwargs.implementations_differ"
   ],
   "note": "Exact arithmetic; supertranslations are one-dimensional arrays. Keywords that are not known are ignored by the code and are not part of the model."
  },
  {
   "property": "C36",
   "status": "partial",
   "theorems": [
    "Verif.Props.Bms.svd_spec_can_be_met",
    "Verif.Props.Bms.init_valid",
    "Verif.Props.Bms.element_sphere",
    "Verif.Props.Bms.mul_composes",
    "Verif.Props.Bms.mul_assoc",
    "Verif.Props.Bms.identity_element",
    "Verif.Props.Bms.identity_neutral",
    "Verif.Props.Bms.inverse_element_partial",
    "Verif.Props.Bms.inverse_mul_partial",
    "Verif.Props.Bms.inverse_mul_small_fails",
    "Verif.Props.Bms.element_determines",
    "Verif.Props.Bms.product_of_parts",
    "Verif.Props.Bms.listed_order_is_not_order_of_application",
    "Verif.Props.Bms.lorentz_inverse",
    "Verif.Props.Bms.lorentz_mul",
    "Verif.Props.Bms.minus_one_fails"
   ],
   "note": "Supertranslations are functions on the sphere: what the code cuts off above ell_max is kept. For ell_max below 12 the product of a transformation with its inverse raises ValueError (proved). The rotor -1 is excluded: the code then makes nan (proved)."
  },
  {
   "property": "C37",
   "status": "partial",
   "theorems": [
    "Verif.Props.Bms.reorder_preserves_element_partial",
    "Verif.Props.Bms.reorder_own_order",
    "Verif.Props.Bms.reorder_there_and_back_partial",
    "Verif.Props.Bms.reorder_missing_name",
    "Verif.Props.Bms.reorder_unknown_order",
    "Verif.Props.Bms.reorder_small_fails",
    "Verif.Props.Bms.reorder_ok_iff",
    "Verif.Props.Bms.lorentz_reorder",
    "Verif.Props.Bms.element_determines"
   ],
   "note": "For ell_max below 12 several reorderings raise ValueError (proved, with the exact condition). Orders with all three names that are not one of the six raise UnboundLocalError."
  },
  {
   "property": "C38",
   "status": "partial",
   "theorems": [
    "Verif.Props.ComMotion.accelFit_optimal",
    "Verif.Props.ComMotion.linearFit_optimal",
    "Verif.Props.ComMotion.accelFit_exact",
    "Verif.Props.ComMotion.estimate_optimal_partial",
    "Verif.Props.ComMotion.estimate_exact_partial",
    "Verif.Props.ComMotion.fit_of_rest_is_wrong",
    "Verif.Props.ComMotion.bbh_spec",
    "Verif.Props.ComMotion.bbh_masses_ignored",
    "Verif.Props.ComMotion.matter_errors",
    "Verif.Props.ComMotion.nsns_spec",
    "Verif.Props.ComMotionRest.rest_found",
    "Verif.Props.ComMotionRest.two_samples"
   ],
   "note": "With exact integrals the fits are optimal for all continuous motions and windows. On samples: proved for the fit without acceleration if the window ends at samples and holds an odd number of them; a center of mass at rest is found exactly for any number of samples (rest_found); false in general (fit_of_rest_is_wrong, and two_samples for an even number of samples)."
  },
  {
   "property": "C39",
   "status": "proved",
   "theorems": [
    "Verif.Props.Superrest.spin_rotor",
    "Verif.Props.Superrest.spin_rotor_nan",
    "Verif.Props.Superrest.rotation_from_spin"
   ],
   "note": "For a spin antiparallel to z, or zero, the rotor is nan (proved); that it then fails in the constructor is assumed."
  },
  {
   "property": "C40",
   "status": "proved",
   "theorems": [
    "Verif.Props.PnAmplitude.symmetry",
    "Verif.Props.PnAmplitude.equal_mass_odd_m",
    "Verif.Props.PnAmplitude.m_zero",
    "Verif.Props.PnAmplitude.mass_exchange",
    "Verif.Props.PnAmplitude.amplitude_22",
    "Verif.Props.PnAmplitude.amplitude_21",
    "Verif.Props.PnAmplitude.amplitude_33",
    "Verif.Props.PnAmplitude.amplitude_32",
    "Verif.Props.PnAmplitude.amplitude_31",
    "Verif.Props.PnAmplitude.amplitude_44"
   ],
   "note": "Beyond the property: exchange of the masses, and six modes compared with the leading terms in Blanchet's review, for all masses and frequencies."
  },
  {
   "property": "C41",
   "status": "partial",
   "theorems": [
    "Verif.Props.SuperrestLoop.run_best",
    "Verif.Props.SuperrestLoop.run_error",
    "Verif.Props.SuperrestLoop.com_best",
    "Verif.Props.SuperrestLoop.rotation_best",
    "Verif.Props.SuperrestLoop.supertranslation_best_only",
    "Verif.Props.SuperrestLoop.no_iterations",
    "Verif.Props.SuperrestLoop.superrest_best_partial",
    "Verif.Props.SuperrestLoop.superrest_no_iterations",
    "Verif.Props.SuperrestLoop.superrest_nan",
    "Verif.Props.SuperrestLoop.superrest_time_phase_never_stops",
    "Verif.Props.SuperrestLoop.superrest_unknown_first",
    "Verif.Props.SuperrestLoop.superrest_unknown_repeats",
    "Verif.Props.SuperrestLoop.superrest_empty_order"
   ],
   "note": "Proved for the three solvers, and for map_to_superrest_frame if it returns and all names in order are known. It raises UnboundLocalError if no mean error is finite or no iteration is allowed; an order that ends with time_phase (with a target) never stops early; unknown names apply the transformation before them again (all proved). What the steps compute is a parameter."
  },
  {
   "property": "C42",
   "status": "proved",
   "theorems": [
    "Verif.Props.BumpRule.parse_spec",
    "Verif.Props.BumpRule.parse_total",
    "Verif.Props.BumpRule.parse_default",
    "Verif.Props.BumpRule.parse_context",
    "Verif.Props.BumpRule.smaller_wins"
   ],
   "note": ""
  },
  {
   "property": "C43",
   "status": "partial",
   "theorems": [
    "Verif.Props.Allclose.verdict_partial",
    "Verif.Props.Allclose.reflexive",
    "Verif.Props.Allclose.frame_ignored",
    "Verif.Props.Allclose.empty_frame_equals",
    "Verif.Props.Allclose.extra_ignored",
    "Verif.Props.Allclose.missing_raises",
    "Verif.Props.Allclose.not_symmetric",
    "Verif.Props.Allclose.nan_differs"
   ],
   "note": "Proved if attributes with the same name have the same kind and shape. Otherwise numpy broadcasts: a waveform without a frame is reported equal to one with any constant frame (frame_ignored). Attributes that only the other waveform has are not looked at, missing ones raise KeyError."
  },
  {
   "property": "C44",
   "status": "partial",
   "theorems": [
    "Verif.Props.PairedXor.round_trip_partial",
    "Verif.Props.PairedXor.round_trip_inertial",
    "Verif.Props.PairedXor.other_frames_refused",
    "Verif.Props.PairedXor.load_validates",
    "Verif.Props.PairedXor.corruption_noticed",
    "Verif.Props.PairedXor.missing_json",
    "Verif.Props.PairedXor.zero_tolerance",
    "Verif.Props.PairedXor.zero_tolerance_corrupts",
    "Verif.Props.PairedXor.zero_tolerance_frame",
    "Verif.Props.PairedXor.flags_lost",
    "Verif.Props.PairedBits.bits_noticed",
    "Verif.Props.PairedBits.bit_flip_noticed"
   ],
   "note": "Missing, because the code violates it: tolerance zero, and the flags for scaled mass and radius.  The arithmetic of pairing, truncation and logarithms is a parameter; sxs.rpxmb (another package) is not modelled."
  },
  {
   "property": "C45",
   "status": "proved",
   "theorems": [
    "Verif.Props.InnerProduct.inner_product_spec",
    "Verif.Props.InnerProduct.inner_product_times",
    "Verif.Props.InnerProduct.inner_product_conj",
    "Verif.Props.InnerProduct.inner_product_linear",
    "Verif.Props.InnerProduct.inner_product_conj_linear",
    "Verif.Props.InnerProduct.inner_product_positive",
    "Verif.Props.InnerProduct.inner_product_rejects"
   ],
   "note": "The spline quadrature is a sum with real weights, which are an input; positivity of the integral assumes positive weights.  When the ranges differ both waveforms need at least two modes (see C17)."
  },
  {
   "property": "C46",
   "status": "proved",
   "theorems": [
    "Verif.Props.Norm.norm_all",
    "Verif.Props.Norm.norm_slice",
    "Verif.Props.Norm.power_eq_zero_iff",
    "Verif.Props.Norm.max_norm_index_spec",
    "Verif.Props.Norm.max_norm_index_negative",
    "Verif.Props.Norm.max_norm_time_spec",
    "Verif.Props.Norm.max_norm_index_empty"
   ],
   "note": "norm is compared through its square; a negative skip fraction, which wraps around, is covered by max_norm_index_negative."
  },
  {
   "property": "C47",
   "status": "partial",
   "theorems": [
    "Verif.Props.Truncate.truncate_row_partial",
    "Verif.Props.Truncate.truncate_norm_partial",
    "Verif.Props.Truncate.idempotent",
    "Verif.Props.Truncate.tol_zero",
    "Verif.Props.Truncate.zero_row_nan",
    "Verif.Props.Truncate.negative_tol_nan",
    "Verif.Props.Truncate.twice_differs"
   ],
   "note": "Proved for every time at which not all data are 0. At other times all data become nan (zero_row_nan). Calling truncate again with the same tol rounds more (twice_differs): only the same absolute tolerance is idempotent. Exact arithmetic."
  },
  {
   "property": "C48",
   "status": "proved",
   "theorems": [
    "Verif.Props.GridMultiply.exact_exists",
    "Verif.Props.GridMultiply.product_modes",
    "Verif.Props.GridMultiply.modes_unique",
    "Verif.Props.GridMultiply.product",
    "Verif.Props.GridMultiply.product_values",
    "Verif.Props.GridMultiply.times_differ",
    "Verif.Props.GridMultiply.output_beyond",
    "Verif.Props.GridMultiply.aliasing"
   ],
   "note": "For a working ell_max of at least 1. That map2salm of spinsfast finds the modes of a function from its values on the grid is an assumption (Exact); exact_exists proves that it can be met. aliasing: with a smaller working ell_max the result is wrong, as the documentation warns."
  },
  {
   "property": "C49",
   "status": "proved",
   "theorems": [
    "Verif.Props.Superrest.D_values",
    "Verif.Props.Superrest.D_Dinv",
    "Verif.Props.Superrest.D_is_eth",
    "Verif.Props.Superrest.D_beyond"
   ],
   "note": "Modes beyond the given ell_max are neither multiplied nor removed (proved)."
  },
  {
   "property": "C50",
   "status": "proved",
   "theorems": [
    "Verif.Props.Superrest.to_wm_mode",
    "Verif.Props.Superrest.to_mt_mode",
    "Verif.Props.Superrest.mt_wm_mt",
    "Verif.Props.Superrest.wm_mt_wm",
    "Verif.Props.Superrest.spin_weights",
    "Verif.Props.Superrest.strain_mode",
    "Verif.Props.Superrest.bar_mode",
    "Verif.Props.Superrest.default_type_loses_modes"
   ],
   "note": "For the data type that has the spin weight of the function. With the default data type a function of another spin weight is not restored (proved)."
  },
  {
   "property": "C51",
   "status": "partial",
   "theorems": [
    "Verif.Props.Weights.descriptor_spells",
    "Verif.Props.Weights.descriptor_partial",
    "Verif.Props.Weights.descriptor_collision"
   ],
   "note": "Type and power of the mass are determined; the mass flag is not, for r hdot and r news."
  },
  {
   "property": "C52",
   "status": "proved",
   "theorems": [
    "Verif.Props.ModeCalc.angular_velocity_minimises",
    "Verif.Props.ModeCalc.angular_velocity_unique",
    "Verif.Props.ModeCalc.angular_velocity_recovers"
   ],
   "note": "np.linalg.solve is a parameter assumed to return a solution when it returns; the derivative of the data is an input; exact arithmetic."
  },
  {
   "property": "C53",
   "status": "partial",
   "theorems": [
    "Verif.Props.Dominant.dominant_spec",
    "Verif.Props.Dominant.dominant_sign",
    "Verif.Props.Dominant.dominant_side",
    "Verif.Props.Dominant.dominant_continuous_partial",
    "Verif.Props.Dominant.dominant_wrong_side",
    "Verif.Props.Dominant.dominant_not_continuous",
    "Verif.Props.Dominant.dominant_negative_index"
   ],
   "note": "Continuity holds where neighbouring axes are at most 60 degrees apart.  Between 60 and 90 degrees the code chooses the wrong side, and a negative index is not honoured; both are theorems.  The eigenvectors are an input."
  },
  {
   "property": "C54",
   "status": "proved",
   "theorems": [
    "Verif.Props.Flux.momentum_flux",
    "Verif.Props.Flux.momentum_bound",
    "Verif.Props.Flux.momentum_le_energy",
    "Verif.Props.Flux.p_z_hermitian",
    "Verif.Props.Flux.p_plus_conj",
    "Verif.Props.Flux.p_z_elements",
    "Verif.Props.Flux.p_plus_commutator",
    "Verif.Props.Flux.p_minus_commutator"
   ],
   "note": "Clebsch-Gordan coefficients are the standard table; exact arithmetic."
  },
  {
   "property": "C55",
   "status": "proved",
   "theorems": [
    "Verif.Props.Flux.angular_momentum_flux",
    "Verif.Props.Flux.angular_momentum_flux_types",
    "Verif.Props.Flux.rigid_rotation"
   ],
   "note": "Exact arithmetic; the time derivative is an input."
  },
  {
   "property": "C56",
   "status": "proved",
   "theorems": [
    "Verif.Props.SuperrestLoop.com_only",
    "Verif.Props.SuperrestLoop.rotation_only",
    "Verif.Props.SuperrestLoop.supertranslation_best_only"
   ],
   "note": "Multiplication by 0 is exact: an iterate with nan in a removed part is not modelled."
  },
  {
   "property": "C57",
   "status": "proved",
   "theorems": [
    "Verif.Props.Superrest.rotation_phase",
    "Verif.Props.Superrest.rotatePhysical_mode"
   ],
   "note": ""
  },
  {
   "property": "C58",
   "status": "proved",
   "theorems": [
    "Verif.Props.Superrest.com_to_rest",
    "Verif.Props.Superrest.polyfit_exact"
   ],
   "note": ""
  },
  {
   "property": "C59",
   "status": "partial",
   "theorems": [
    "Verif.Props.Compare.compare_partial",
    "Verif.Props.Compare.compare_no_frame_partial",
    "Verif.Props.Compare.compare_self",
    "Verif.Props.Compare.sign_chosen",
    "Verif.Props.Compare.times_exist",
    "Verif.Props.Compare.modes_differ",
    "Verif.Props.Compare.constant_frame_raises",
    "Verif.Props.Compare.frame_dropped",
    "Verif.Props.Compare.times_ignored",
    "Verif.Props.Compare.wrong_modes"
   ],
   "note": "Proved if both waveforms have the same modes and both frames are functions of time, or there are no frames. Constant frames raise AttributeError, other combinations drop the frame, min_time_step and min_time are ignored, and waveforms with the same number of modes but other modes are compared mode against wrong mode (all proved)."
  },
  {
   "property": "C60",
   "status": "proved",
   "theorems": [
    "Verif.Props.GridModes.transform_time_rotation",
    "Verif.Props.GridModes.transform_default",
    "Verif.Props.GridModes.transform_is_rotation",
    "Verif.Props.GridModes.transform_identity",
    "Verif.Props.GridModes.transform_compose",
    "Verif.Props.GridModes.round_trip",
    "Verif.Props.GridModes.from_modes_values",
    "Verif.Props.GridModes.to_modes_values",
    "Verif.Props.GridModes.from_modes_general",
    "Verif.Props.GridModes.from_modes_weyl",
    "Verif.Props.GridModes.vDotR_value",
    "Verif.Props.GridModes.not_inertial",
    "Verif.Props.GridModes.frame_ignored",
    "Verif.Props.GridModes.too_few_points",
    "Verif.Props.GridModes.exact_exists",
    "Verif.Props.GridModes.interpolates_exists",
    "Verif.Props.GridModes.sample_good"
   ],
   "note": "In exact arithmetic, for every interpolating spline and every analysis that is exact for band-limited fields. The stored frame of a waveform of inertial type is ignored (frame_ignored)."
  },
  {
   "property": "C61",
   "status": "proved",
   "theorems": [
    "Verif.Props.AbdModes.transform_time_rotation",
    "Verif.Props.AbdModes.transform_general",
    "Verif.Props.AbdModes.transform_default",
    "Verif.Props.AbdModes.transform_identity",
    "Verif.Props.AbdModes.transform_compose",
    "Verif.Props.AbdModes.transform_agrees",
    "Verif.Props.AbdModes.transform_errors",
    "Verif.Props.AbdModes.fprime_value",
    "Verif.Props.AbdModes.interpolates_exists",
    "Verif.Props.AbdModes.sample_good"
   ],
   "note": "In exact arithmetic, for every interpolating spline and (for the statements about modes of rotations and time translations) every analysis that is exact for band-limited fields."
  },
  {
   "property": "C62",
   "status": "proved",
   "theorems": [
    "Verif.Props.CreateAbd.create_spec",
    "Verif.Props.CreateAbd.create_converted",
    "Verif.Props.CreateAbd.weyl_commutes",
    "Verif.Props.CreateAbd.strain_commutes",
    "Verif.Props.CreateAbd.conformal_weights",
    "Verif.Props.CreateAbd.strain_roundtrip",
    "Verif.Props.CreateAbd.strain_moreschi",
    "Verif.Props.CreateAbd.create_mass",
    "Verif.Props.CreateAbd.create_errors",
    "Verif.Props.CreateAbd.create_times",
    "Verif.Props.CreateAbd.select_times",
    "Verif.Props.CreateAbd.select_own",
    "Verif.Props.CreateAbd.interpolate_common",
    "Verif.Props.CreateAbd.sample_fit"
   ],
   "note": "In exact arithmetic, after the files have been read; without the step to the superrest frame.  Findings: TypeError instead of the intended ValueError for different times; h doubled in the convention moreschi-boyle; the ends are lost in interpolation."
  },
  {
   "property": "C63",
   "status": "proved",
   "theorems": [
    "Verif.Props.FluxIntegral.harmonics_orthonormal",
    "Verif.Props.FluxIntegral.p_z_integral",
    "Verif.Props.FluxIntegral.p_plusminus_integral",
    "Verif.Props.FluxIntegral.parseval",
    "Verif.Props.FluxIntegral.energy_flux_integral",
    "Verif.Props.FluxIntegral.momentum_flux_integral"
   ],
   "note": "Exact arithmetic; the time derivative of a strain is an input; integrals are iterated interval integrals in theta and phi."
  },
  {
   "property": "C64",
   "status": "proved",
   "theorems": [
    "Verif.Props.FluxCovariance.momentum_flux_rotated",
    "Verif.Props.FluxCovariance.rotate_momentum_flux",
    "Verif.Props.FluxCovariance.rotate_energy_flux"
   ],
   "note": "For the news itself (dataType hdot), or for any two waveforms whose news are rotated into each other; constant rotors."
  },
  {
   "property": "C65",
   "status": "proved",
   "theorems": [
    "Verif.Props.AngMomCov.rotate_rows",
    "Verif.Props.AngMomCov.LVector_rotated",
    "Verif.Props.AngMomCov.LdtVector_rotated",
    "Verif.Props.AngMomCov.LLMatrix_rotated",
    "Verif.Props.AngMomCov.eigenvector_rotated",
    "Verif.Props.AngMomCov.angular_velocity_rotated",
    "Verif.Props.AngMomCov.angular_momentum_flux_rotated"
   ],
   "note": "Exact arithmetic; the linear solver is any routine that returns solutions; the rotation is constant in time."
  },
  {
   "property": "C66",
   "status": "partial",
   "theorems": [
    "Verif.Props.BoostFlux.chi_field",
    "Verif.Props.BoostFlux.boost_flux_integral",
    "Verif.Props.BoostFlux.boost_flux_rotated",
    "Verif.Props.BoostFlux.boost_flux_shifted",
    "Verif.Props.BoostFlux.poincare_fluxes",
    "Verif.Props.BoostFlux.boost_flux_rejects"
   ],
   "note": "The change under a shift of the origin of time is tau/4 times momentum_flux, not tau times it (boost_flux_shifted): the two functions differ in normalisation. Everything else is proved in full. Exact arithmetic."
  },
  {
   "property": "C67",
   "status": "proved",
   "theorems": [
    "Verif.Props.SphereOps.field_derivatives",
    "Verif.Props.SphereOps.eth_differential",
    "Verif.Props.SphereOps.sequence_differential",
    "Verif.Props.SphereOps.apply_eth_differential",
    "Verif.Props.SphereOps.boost_flux_differential"
   ],
   "note": "Exact arithmetic."
  },
  {
   "property": "C68",
   "status": "proved",
   "theorems": [
    "Verif.Props.AngMomIntegral.L_differential",
    "Verif.Props.AngMomIntegral.inner_L_integral",
    "Verif.Props.AngMomIntegral.inner_LL_integral",
    "Verif.Props.AngMomIntegral.LVector_integral",
    "Verif.Props.AngMomIntegral.LdtVector_integral",
    "Verif.Props.AngMomIntegral.LLMatrix_integral",
    "Verif.Props.AngMomIntegral.change_integral",
    "Verif.Props.AngMomIntegral.angular_velocity_integral",
    "Verif.Props.AngMomIntegral.angular_momentum_flux_integral"
   ],
   "note": "Exact arithmetic."
  },
  {
   "property": "C69",
   "status": "partial",
   "theorems": [
    "Verif.Props.Balance.four_momentum_balance",
    "Verif.Props.Balance.angular_momentum_balance",
    "Verif.Props.Balance.boost_balance_partial",
    "Verif.Props.Balance.boost_flux_not_rate",
    "Verif.Props.Balance.linear_bondi"
   ],
   "note": "Energy, momentum and angular momentum balance.  The boost charge changes at the rate of plus four times boost_flux, not minus boost_flux (boost_flux_not_rate)."
  },
  {
   "property": "C70",
   "status": "proved",
   "theorems": [
    "Verif.Props.BmsFile.store_refines",
    "Verif.Props.BmsFile.round_trip",
    "Verif.Props.BmsFile.copy_same",
    "Verif.Props.BmsFile.construct_again",
    "Verif.Props.BmsFile.reserved_group_half_written"
   ],
   "note": "A group named like a dataset (say order) makes a later write to the root fail half-way (reserved_group_half_written)."
  },
  {
   "property": "C71",
   "status": "partial",
   "theorems": [
    "Verif.Props.BmsFile.is_close_to_spec",
    "Verif.Props.BmsFile.is_close_to_self",
    "Verif.Props.BmsFile.different_ell_max_raises",
    "Verif.Props.BmsFile.order_is_ignored",
    "Verif.Props.BmsFile.sign_of_rotor",
    "Verif.Props.BmsFile.not_symmetric"
   ],
   "note": "For equal ell_max the verdict is exactly that of the components (is_close_to_spec).  It raises if ell_max differs, ignores the order, distinguishes rotors that describe the same rotation, and is not symmetric; all four are theorems."
  },
  {
   "property": "C72",
   "status": "partial",
   "theorems": [
    "Verif.Props.AbdHeap.heap_refines",
    "Verif.Props.AbdHeap.observed",
    "Verif.Props.AbdHeap.times_agree_partial",
    "Verif.Props.AbdHeap.set_series_local",
    "Verif.Props.AbdHeap.copy_looks_same",
    "Verif.Props.AbdHeap.translate_spec",
    "Verif.Props.AbdHeap.copy_series_keep_times",
    "Verif.Props.AbdHeap.original_changes_copy",
    "Verif.Props.AbdHeap.copy_changes_original",
    "Verif.Props.AbdHeap.shifted_copy_interpolates_wrong",
    "Verif.Props.AbdHeap.interpolate_loses_truncator"
   ],
   "note": "The program with arrays in memory refines exactly a description with values (observed), in which a copy keeps its own times but the times of its series are those of the original.  Without copies the series have the times of the object (times_agree_partial); data are always independent (set_series_local new_data new_times).  The full claim is false for copies: copy_series_keep_times, original_changes_copy, copy_changes_original, shifted_copy_interpolates_wrong."
  },
  {
   "property": "C73",
   "status": "partial",
   "theorems": [
    "Verif.Props.TimeSeries.construct_spec",
    "Verif.Props.TimeSeries.construct_raises",
    "Verif.Props.TimeSeries.interpolate_spec",
    "Verif.Props.TimeSeries.interpolate_same",
    "Verif.Props.TimeSeries.derivatives_spec",
    "Verif.Props.TimeSeries.interpolate_raises",
    "Verif.Props.TimeSeries.out_raises",
    "Verif.Props.TimeSeries.integer_times",
    "Verif.Props.TimeSeries.interpolate_integer_times",
    "Verif.Props.TimeSeries.two_positional_ignored"
   ],
   "note": "Holds for float times and without out.  The argument out always raises (out_raises), integer times are reinterpreted as tiny floats (integer_times, interpolate_integer_times), and two positional arguments are silently ignored (two_positional_ignored)."
  },
  {
   "property": "C74",
   "status": "partial",
   "theorems": [
    "Verif.Props.SpecFile.round_trip_partial",
    "Verif.Props.SpecFile.read_sound",
    "Verif.Props.SpecFile.write_local",
    "Verif.Props.SpecFile.write_taken",
    "Verif.Props.SpecFile.read_plain",
    "Verif.Props.SpecFile.clean_write",
    "Verif.Props.SpecFile.frame_lost",
    "Verif.Props.SpecFile.other_format_unreadable",
    "Verif.Props.SpecFile.non_monotonic_unreadable",
    "Verif.Props.SpecFile.version_lost_in_group",
    "Verif.Props.SpecFile.two_h5",
    "Verif.Props.SpecNames.plus_sign",
    "Verif.Props.SpecNames.bad_sign"
   ],
   "note": "Everything but the frame comes back from the default format (round_trip_partial).  The frame is lost (frame_lost), the other format cannot be read (other_format_unreadable), a version history in a group is lost (version_lost_in_group), and a file whose times are not monotonic cannot be read although the reader filters times (non_monotonic_unreadable)."
  },
  {
   "property": "C75",
   "status": "partial",
   "theorems": [
    "Verif.Props.Align.aligned_partial",
    "Verif.Props.Align.alignRotor_spec",
    "Verif.Props.Align.alignment_exists",
    "Verif.Props.Align.alignment_refused",
    "Verif.Props.Align.window_spec",
    "Verif.Props.Align.combine_rotated",
    "Verif.Props.Align.phase_zero_partial",
    "Verif.Props.Align.phase_not_zero"
   ],
   "note": "All but the phase is proved of the waveform that is returned (aligned_partial, alignment_exists, alignment_refused).  The phase of the (2,2) mode is not zero in general (phase_not_zero): the phases of (2,2) and (2,-2) become equal.  They are zero if the two modes are conjugates of each other and not negative (phase_zero_partial)."
  },
  {
   "property": "C76",
   "status": "partial",
   "theorems": [
    "Verif.Props.Frames.coprecessing",
    "Verif.Props.Frames.corotating",
    "Verif.Props.Frames.corotating_plain",
    "Verif.Props.Frames.corotating_region",
    "Verif.Props.Frames.region_aligned_partial",
    "Verif.Props.Frames.correction_rotor",
    "Verif.Props.Frames.truncLog_close",
    "Verif.Props.Frames.spacing",
    "Verif.Props.Frames.exp_log",
    "Verif.Props.Frames.argmin_spec",
    "Verif.Props.Frames.region_fails_short"
   ],
   "note": "Proved for waveforms with more than 10 times, and for all others without a z_alignment_region.  With a region every waveform with 10 times or fewer raises IndexError (region_fails_short).  A single constant rotor as frame is excluded: see C13."
  },
  {
   "property": "C77",
   "status": "proved",
   "theorems": [
    "Verif.Props.Cwwy.cwwy_supertranslation",
    "Verif.Props.Cwwy.bondi_supertranslation",
    "Verif.Props.Cwwy.translation",
    "Verif.Props.Cwwy.potential_spec",
    "Verif.Props.Cwwy.cwwy_magnetic",
    "Verif.Props.Cwwy.bondi_not_invariant",
    "Verif.Props.Cwwy.transform_formulas"
   ],
   "note": "The data in the new frame are given by a specification (Spec/Supertranslation) whose formulas are those of AsymptoticBondiData.transform (transform_formulas).  Products are exact for the modes with ell <= 1 that the charges use (IsProduct, as for C69)."
  },
  {
   "property": "C78",
   "status": "partial",
   "theorems": [
    "Verif.Props.Samples.one_mode_spec",
    "Verif.Props.Samples.one_mode_field",
    "Verif.Props.Samples.rotation_time_spec",
    "Verif.Props.Samples.supertranslated_spec",
    "Verif.Props.Samples.threeJ1_spec",
    "Verif.Props.Samples.translated_spec",
    "Verif.Props.Samples.no_translation",
    "Verif.Props.Samples.times_spec",
    "Verif.Props.Samples.times_beyond",
    "Verif.Props.Samples.data_type_spec",
    "Verif.Props.Samples.constant_spec",
    "Verif.Props.Samples.single_mode_spec",
    "Verif.Props.Samples.single_mode_wrong",
    "Verif.Props.Samples.kwargs_ignored",
    "Verif.Props.Samples.below_wrong",
    "Verif.Props.Samples.first_radius_partial",
    "Verif.Props.Samples.second_radius_wrong",
    "Verif.Props.Samples.radii_dependent",
    "Verif.Props.Samples.two_terms_wrong",
    "Verif.Props.Samples.mass_ratio_ignored",
    "Verif.Props.SamplesTimes.sample_times"
   ],
   "note": "For supertranslations beyond ell = 1 the 3-j symbols are assumed to give the integrals of three harmonics (IsThreeJ); up to ell = 1 that is proved for the standard ones.  The claims of the documentation on finite radii, passing keywords on and the default translation are refuted.  Random waveforms are C98, the precessing one is C93."
  },
  {
   "property": "C79",
   "status": "partial",
   "theorems": [
    "Verif.Props.Moreschi.momentum_spec",
    "Verif.Props.Moreschi.rVector_spec",
    "Verif.Props.Moreschi.rest_mass_spec",
    "Verif.Props.Moreschi.conformal_iff",
    "Verif.Props.Moreschi.conformal_partial",
    "Verif.Props.Moreschi.conformal_wrong",
    "Verif.Props.Moreschi.moreschi_const",
    "Verif.Props.Moreschi.moreschi_grid",
    "Verif.Props.Moreschi.perturbation_grid",
    "Verif.Props.Moreschi.target_behind",
    "Verif.Props.Moreschi.step_behind",
    "Verif.Props.Moreschi.superrest_converges",
    "Verif.Props.Moreschi.superrest_frame",
    "Verif.Props.Moreschi.target_converges",
    "Verif.Props.Moreschi.target_at_rest_nan",
    "Verif.Props.Moreschi.larger_ell_max",
    "Verif.Props.Moreschi.smaller_ell_max",
    "Verif.Props.SuperrestAny.attained",
    "Verif.Props.SuperrestRadiating.errors_losing",
    "Verif.Props.SuperrestRadiating.radiating_converges",
    "Verif.Props.SuperrestRadiating.radiating_fails"
   ],
   "note": "For supermomenta at rest that do not depend on time the superrest frame is reached in one pass.  For all data, radiating or not, the supertranslation that is returned has the smallest of the reported errors, and that error is the norm of the modes ell >= 2 that compute_Moreschi_supermomentum finds in the new frame (attained); for data whose mass changes at a constant rate, with fluxes into all directions alike, the error of pass n is at most (|rate|/6)^n times that of the data, so that every tolerance is met if the rate is below 6 (radiating_converges), and none is if it is not (radiating_fails); for other radiating data that the errors become small is not proved.  For moving data the conformal factor is wrong: the y component of the direction has the wrong sign, and the factor is right exactly where that does not matter (conformal_iff).  A target without modes ell >= 2 gives nan errors and no supertranslation."
  },
  {
   "property": "C80",
   "status": "partial",
   "theorems": [
    "Verif.Props.AbdFrame.nearest_spec",
    "Verif.Props.AbdFrame.start_spec",
    "Verif.Props.AbdFrame.window_spec",
    "Verif.Props.AbdFrame.rel_err_zero_iff",
    "Verif.Props.AbdFrame.rel_err_single",
    "Verif.Props.AbdFrame.abd_best_partial",
    "Verif.Props.AbdFrame.abd_no_iterations",
    "Verif.Props.AbdFrame.abd_nan",
    "Verif.Props.AbdFrame.abd_exact",
    "Verif.Props.AbdFrame.abd_exact_unaligned"
   ],
   "note": "The property fails without iterations and if no error is finite (UnboundLocalError), and the error of equal data is nan for a window with one time.  Transformations of the data, map_to_superrest_frame and align2d are parameters."
  },
  {
   "property": "C81",
   "status": "proved",
   "theorems": [
    "Verif.Props.ChargeCov.four_momentum_rotated",
    "Verif.Props.ChargeCov.rest_mass_rotated",
    "Verif.Props.ChargeCov.angular_momentum_rotated",
    "Verif.Props.ChargeCov.CoM_rotated",
    "Verif.Props.ChargeCov.supermomentum_rotated",
    "Verif.Props.ChargeCov.dimensionless_spin_rotated",
    "Verif.Props.ChargeCov.rotated_of_transformed",
    "Verif.Props.ChargeCov.charges_of_transform"
   ],
   "note": "Products of series are exact (IsProduct); the time derivative is a weighted sum of values with weights that do not depend on the origin of time; default working and output ell_max."
  },
  {
   "property": "C82",
   "status": "partial",
   "theorems": [
    "Verif.Props.FiniteRadius.read_spec",
    "Verif.Props.FiniteRadius.process_spec",
    "Verif.Props.FiniteRadius.dimensionless",
    "Verif.Props.FiniteRadius.retarded_schwarzschild",
    "Verif.Props.FiniteRadius.retarded_step",
    "Verif.Props.FiniteRadius.times_increasing",
    "Verif.Props.FiniteRadius.units_irrelevant"
   ],
   "note": "The removal of repeated samples is that of C27: if a later sample is within 0.001 of the first one, the loop does not end. For NRAR files, read_from_h5 rejects repeated times before (C74). Unit independence is for given indices: the step 0.001 is in code units."
  },
  {
   "property": "C83",
   "status": "partial",
   "theorems": [
    "Verif.Props.OuterRadius.outer_of_all",
    "Verif.Props.OuterRadius.outer_of_strings_partial",
    "Verif.Props.OuterRadius.wrong_outer",
    "Verif.Props.OuterRadius.not_rotated",
    "Verif.Props.OuterRadius.integers_rejected",
    "Verif.Props.OuterRadius.format_spec_partial",
    "Verif.Props.OuterRadius.rpxmb_rejected",
    "Verif.Props.OuterRadius.common_times",
    "Verif.Props.OuterRadius.common_times_one",
    "Verif.Props.OuterRadius.set_common_time",
    "Verif.Props.OuterRadius.pick_mass_partial",
    "Verif.Props.OuterRadius.pick_constant_mass",
    "Verif.Props.OuterRadius.validate_spec",
    "Verif.Props.OuterRadius.different_modes_pass"
   ],
   "note": "Proved for all radii and for strings in the order of the file that find one waveform each; false for strings in another order, for patterns that find two, for integers and for the rpxmb formats (see DESIGN section 6). pick_mass_partial is for masses that are not all equal."
  },
  {
   "property": "C84",
   "status": "proved",
   "theorems": [
    "Verif.Props.Violation.violation_squared_spec",
    "Verif.Props.Violation.pythagoras",
    "Verif.Props.Violation.normalized_spec",
    "Verif.Props.Violation.violation_rejected",
    "Verif.Props.Violation.inversion_invariant",
    "Verif.Props.Violation.z_invariant",
    "Verif.Props.Violation.sample_violation"
   ],
   "note": "Per time sample. Waveforms of unknown type or with one mode are rejected, as by the parity operations (C09)."
  },
  {
   "property": "C85",
   "status": "partial",
   "theorems": [
    "Verif.Props.Exchange.round_trip",
    "Verif.Props.Exchange.type_names",
    "Verif.Props.Exchange.unknown_name",
    "Verif.Props.Exchange.frame_rejected",
    "Verif.Props.Exchange.wrong_error",
    "Verif.Props.Exchange.attributes_lost",
    "Verif.Props.Exchange.modifications_listed",
    "Verif.Props.Exchange.history_of_the_original_changes"
   ],
   "note": "The round trip is proved for the data; the attached attributes are lost, the history of the original changes and from_sxs raises a NameError for wrong frames (see DESIGN section 6)."
  },
  {
   "property": "C86",
   "status": "proved",
   "theorems": [
    "Verif.Props.MergerZoom.forward_eq",
    "Verif.Props.MergerZoom.forward_continuous",
    "Verif.Props.MergerZoom.forward_strictMono",
    "Verif.Props.MergerZoom.backward_forward",
    "Verif.Props.MergerZoom.forward_backward",
    "Verif.Props.MergerZoom.lengths",
    "Verif.Props.MergerZoom.default_stretch",
    "Verif.Props.MergerZoom.limits_spec",
    "Verif.Props.MergerZoom.stretch_refused",
    "Verif.Props.MergerZoom.wrong_order_accepted"
   ],
   "note": "For merger before ringdown, which the code does not check."
  },
  {
   "property": "C87",
   "status": "partial",
   "theorems": [
    "Verif.Props.ComCorrection.run_spec",
    "Verif.Props.ComCorrection.aux_files",
    "Verif.Props.ComCorrection.no_aux_files",
    "Verif.Props.ComCorrection.wrong_directory",
    "Verif.Props.ComCorrection.nrar_file",
    "Verif.Props.ComCorrection.rpxmb_file",
    "Verif.Props.ComCorrection.nrar_not_overwritten",
    "Verif.Props.ComCorrection.rpxmb_not_overwritten",
    "Verif.Props.ComCorrection.masses_found",
    "Verif.Props.ComCorrection.masses_not_read"
   ],
   "note": "Proved for paths in which the recognised part of the name occurs once; false for directories that contain it, for the version history in NRAR files, and for the masses if the matter file is given (see DESIGN section 6)."
  },
  {
   "property": "C88",
   "status": "proved",
   "theorems": [
    "Verif.Props.Lvc.read_spec",
    "Verif.Props.Lvc.read_succeeds_iff",
    "Verif.Props.Lvc.missing_refused",
    "Verif.Props.Lvc.garbage_irrelevant",
    "Verif.Props.Lvc.amplitude",
    "Verif.Props.Lvc.polar_round_trip",
    "Verif.Props.Lvc.history_kept",
    "Verif.Props.Lvc.phaseMatch_phaseName"
   ],
   "note": "For files whose names have non-negative degrees."
  },
  {
   "property": "C89",
   "status": "proved",
   "theorems": [
    "Verif.Props.Overlap.norm_integral",
    "Verif.Props.Overlap.norm_rotated",
    "Verif.Props.Overlap.norm_rotate",
    "Verif.Props.Overlap.norm_rotate_series",
    "Verif.Props.Overlap.norm_inertial",
    "Verif.Props.Overlap.inner_product_integral",
    "Verif.Props.Overlap.inner_product_rotated",
    "Verif.Props.Overlap.inner_product_rotate",
    "Verif.Props.Overlap.cauchy_schwarz"
   ],
   "note": ""
  },
  {
   "property": "C90",
   "status": "partial",
   "theorems": [
    "Verif.Props.Batch.safe_format_partial",
    "Verif.Props.Batch.later",
    "Verif.Props.Batch.escaped_braces",
    "Verif.Props.Batch.empty_braces",
    "Verif.Props.Batch.unmatched_braces",
    "Verif.Props.Batch.find_spec_partial",
    "Verif.Props.Batch.find_nodup",
    "Verif.Props.Batch.isLev_iff",
    "Verif.Props.Batch.wrong_subdirectory",
    "Verif.Props.Batch.trailing_slash",
    "Verif.Props.Batch.top_itself",
    "Verif.Props.BatchFields.field_raises"
   ],
   "note": "Proved for templates of text and simple names, and for paths that do not repeat the name of the top directory; false for doubled or empty braces, for paths that repeat it, for a top directory with a slash at its end and for one that is a Lev directory (see DESIGN section 6)."
  },
  {
   "property": "C91",
   "status": "proved",
   "theorems": [
    "Verif.Props.BondiFrame.bondi_kept",
    "Verif.Props.BondiFrame.mass_aspect",
    "Verif.Props.BondiFrame.moved_smooth",
    "Verif.Props.BondiFrame.frame",
    "Verif.Props.BondiFrame.computed",
    "Verif.Props.BondiFrame.mass_bondi"
   ],
   "note": "The polar axis is taken along the boost; C97 shows that the code treats every other direction as this one with rotated axes, and the interpolation in time is exact: the theorem speaks of the fields for all times and directions, of which the computed values are samples (theorem computed). The poles, where the coordinates are singular, are left out."
  },
  {
   "property": "C92",
   "status": "proved",
   "theorems": [
    "Verif.Props.FourMomentum.four_momentum",
    "Verif.Props.FourMomentum.momentum_moved",
    "Verif.Props.FourMomentum.momentum_boost",
    "Verif.Props.FourMomentum.square_seen",
    "Verif.Props.FourMomentum.momentum_modes",
    "Verif.Props.FourMomentum.code_momentum",
    "Verif.Props.FourMomentum.mass_momentum"
   ],
   "note": "The polar axis is taken along the boost (C97 covers the other directions). The momentum of the new frame is the integral over the sphere of the new fields (theorem computed of C91 says which values the code has of them); theorems momentum_modes and code_momentum say that the code computes this integral from modes."
  },
  {
   "property": "C93",
   "status": "partial",
   "theorems": [
    "Verif.Props.Precessing.times",
    "Verif.Props.Precessing.last_time",
    "Verif.Props.Precessing.too_close",
    "Verif.Props.Precessing.succeeds",
    "Verif.Props.Precessing.corotating_spec",
    "Verif.Props.Precessing.exchange",
    "Verif.Props.Precessing.antisymmetric",
    "Verif.Props.Precessing.symmetric_after",
    "Verif.Props.Precessing.zero_modes",
    "Verif.Props.Precessing.decay",
    "Verif.Props.Precessing.before_merger",
    "Verif.Props.Precessing.unit_frames",
    "Verif.Props.Precessing.first_frame",
    "Verif.Props.Precessing.precession",
    "Verif.Props.Precessing.precession_fast",
    "Verif.Props.Precessing.axis_late",
    "Verif.Props.Precessing.nutates_after",
    "Verif.Props.Precessing.not_settled",
    "Verif.Props.Precessing.opening_negative",
    "Verif.Props.Precessing.opening_rate",
    "Verif.Props.Precessing.phase_rate",
    "Verif.Props.Precessing.frequency_rate",
    "Verif.Props.Precessing.chirp_iff",
    "Verif.Props.Precessing.not_chirp",
    "Verif.Props.PrecessingFrame.precession_frame",
    "Verif.Props.PrecessingFrame.nutation_frame"
   ],
   "note": "Proved false of the code: the angle around the cone is the phase divided by precession_relative_rate, so with the default 0.1 the precession is ten times faster than the orbit (precession_fast); there is no nutation before merger and it goes on for ever after it, so the direction does not settle (nutates_after, not_settled); the cone closes first if the times are negative (opening_negative) and its default rate is not the documented one (opening_rate); the frequency is that of leading-order PN only for equal masses (chirp_iff, not_chirp); the last time need not be t_1 (last_time). The conversion to the inertial frame is C11 and C76."
  },
  {
   "property": "C94",
   "status": "proved",
   "theorems": [
    "Verif.Props.BoostTensor.dipole_boost",
    "Verif.Props.BoostTensor.aspect_zero",
    "Verif.Props.BoostTensor.tensor_cut",
    "Verif.Props.BoostTensor.tensor_static",
    "Verif.Props.BoostTensor.code_charges",
    "Verif.Props.BoostTensor.lubanski_seen",
    "Verif.Props.BoostTensor.spin_square",
    "Verif.Props.BoostTensor.spin_invariant",
    "Verif.Props.BoostTensor.spin_static",
    "Verif.Props.BoostTensor.rotating_static"
   ],
   "note": "The velocity is along the polar axis; other directions follow with rotations (C57, C81, C97). The exact functions transformed pointwise are used; the finite grid and the splines of the code are C60 and C61."
  },
  {
   "property": "C95",
   "status": "partial",
   "theorems": [
    "Verif.Props.Catalog.files_iff",
    "Verif.Props.Catalog.line_iff",
    "Verif.Props.Catalog.table",
    "Verif.Props.Catalog.too_many_cells",
    "Verif.Props.Catalog.columns_shifted",
    "Verif.Props.Catalog.dirname_join",
    "Verif.Props.Catalog.level_of",
    "Verif.Props.Catalog.no_row_twice",
    "Verif.Props.Catalog.call_raises",
    "Verif.Props.Catalog.never_written",
    "Verif.Props.Catalog.test_name",
    "Verif.Props.Catalog.by_keyword",
    "Verif.Props.CatalogWindow.window_spec"
   ],
   "note": "The rows are settled exactly (table, line_iff).  Proved false of the code: each row has eleven cells for ten names, so that every column but the last is read with the numbers of its neighbour (too_many_cells, columns_shifted); a path with Lev in it twice gives no row (no_row_twice); the second script passes the path as the waveform, so that every call raises and nothing is ever written (never_written).  The file whose existence it tests is the right one (test_name), and the call with the path passed by name writes it (by_keyword)."
  },
  {
   "property": "C96",
   "status": "proved",
   "theorems": [
    "Verif.Props.ComFrame.translation",
    "Verif.Props.ComFrame.poincare",
    "Verif.Props.ComFrame.one_pass",
    "Verif.Props.ComFrame.two_passes",
    "Verif.Props.ComFrame.code_com",
    "Verif.Props.ComFrame.moving_static",
    "Verif.Props.ComFrame.one_pass_is_not_enough",
    "Verif.Props.ComLoop.product",
    "Verif.Props.ComLoop.converges"
   ],
   "note": "The momentum is along the polar axis; other directions follow with rotations (C57, C81, C97). Exact functions are transformed pointwise, without the finite grid and the splines (C60, C61); the two passes are exact for that reason. One pass is not enough if the spin has a component perpendicular to the velocity (one_pass_is_not_enough)."
  },
  {
   "property": "C97",
   "status": "proved",
   "theorems": [
    "Verif.Props.AbdCovariant.covariant",
    "Verif.Props.AbdCovariant.factor",
    "Verif.Props.AbdCovariant.compose",
    "Verif.Props.AbdCovariant.rotation_first",
    "Verif.Props.AbdCovariant.boost_rotated",
    "Verif.Props.AbdCovariant.boost_axis",
    "Verif.Props.AbdCovariant.along_axis"
   ],
   "note": "The rotation comes first. The other order (any transformation, then a rotation) is not exact in the code: the first call has already projected onto finitely many modes. Arithmetic is exact, and the tolerances 3e-14 and 1e-200 of boosted_grid are 0, as in C61."
  },
  {
   "property": "C98",
   "status": "partial",
   "theorems": [
    "Verif.Props.RandomSamples.random_times",
    "Verif.Props.RandomSamples.uniform_times",
    "Verif.Props.RandomSamples.random_spec",
    "Verif.Props.RandomSamples.proportional_spec",
    "Verif.Props.RandomSamples.four_turns",
    "Verif.Props.RandomSamples.caller_repeats",
    "Verif.Props.RandomSamples.others_ignored",
    "Verif.Props.RandomSamples.ell_max_ignored",
    "Verif.Props.RandomSamples.not_reproducible",
    "Verif.Props.RandomSamples.statement_wrong",
    "Verif.Props.RandomSamples.statement_name",
    "Verif.Props.RandomSamples.no_times"
   ],
   "note": "The contents are proved. Reproducibility in another interpreter, the passing of other keywords and the recorded statement are refuted. That the times are distinct and the rotors are units needs that the generator never draws two equal numbers, or the middle of the interval."
  },
  {
   "property": "C99",
   "status": "partial",
   "theorems": [
    "Verif.Props.Constraints.norms_spec",
    "Verif.Props.Constraints.norms_truncated",
    "Verif.Props.Constraints.norms_rotated",
    "Verif.Props.Constraints.norms_of_transform",
    "Verif.Props.Constraints.truncator_lost"
   ],
   "note": "All is proved for data whose products are not truncated. With the truncator max, which from_initial_values uses, transform is refuted: it does not hand the truncator on, so the norms change under the identity."
  }
 ]
}