{"id": "C01", "title": "XOR time-series encoding is lossless", "statement": "Applying xor_timeseries along the time axis and then xor_timeseries_reverse (or the other way round) returns exactly the original bit patterns; the first time step is unchanged and every later encoded step is the XOR of the step with its predecessor in the original data.", "quantifier": "all 64-bit words, all numbers of columns, all numbers of time steps (including 0 and 1)", "why_tests_cant": "Losslessness of a running-XOR encoder is a statement about every word pattern (NaN payloads, negative zero, ...) and every length; the in-place loop reads values that it has overwritten, so one sampled length says nothing about the next.", "anchors": ["scri/utilities.py:xor_timeseries", "scri/utilities.py:xor_timeseries_reverse"]}
{"id": "C02", "title": "multishuffle round trip", "statement": "For every list of positive shuffle widths whose sum is 8, 16, 32 or 64, the forward shuffle followed by the inverse shuffle (and the inverse followed by the forward one) is the identity on every array of unsigned integers of that width.", "quantifier": "all width lists summing to a supported word size, all array lengths, all contents", "why_tests_cant": "There are 2^63 width lists for 64-bit words and arbitrary array lengths; words straddle output-element boundaries in different ways for each combination.", "anchors": ["scri/utilities.py:multishuffle"]}
{"id": "C03", "title": "multishuffle layout and rejected widths", "statement": "multishuffle rejects width lists whose sum is not 8, 16, 32 or 64 with ValueError; for accepted widths the shuffled array, read as one little-endian bit stream, is the concatenation over the width groups (least-significant group first) of the corresponding bit field of every element in order; no write falls outside the output array.", "quantifier": "all width lists, all array lengths and contents", "why_tests_cant": "A layout guarantee (needed to read files written by another version) constrains every bit position for every width list and length.", "anchors": ["scri/utilities.py:multishuffle"]}
{"id": "C04", "title": "fletcher32 never overflows and is the Fletcher-32 checksum", "statement": "For every input array viewed as 16-bit words, none of the intermediate unsigned 32-bit accumulators of fletcher32 wraps around, and the result equals c1*65536 + c0 where c0 and c1 are the Fletcher sums computed with exact arithmetic and reduced mod 65535.", "quantifier": "all word sequences of any length", "why_tests_cant": "Overflow depends on the worst case over a 360-word block of all-ones data preceded by maximal residues; the argument is inductive over arbitrarily many blocks.", "anchors": ["scri/utilities.py:fletcher32"]}
{"id": "C05", "title": "fletcher32 detects every single-word corruption except 0x0000<->0xffff, and every adjacent swap of words that differ modulo 65535", "statement": "Changing one 16-bit word of the data changes the checksum, unless the two values are congruent modulo 65535 (that is, 0x0000 and 0xffff are interchanged); swapping two adjacent words changes the checksum unless they are congruent modulo 65535.", "quantifier": "all data, all positions, all replacement values", "why_tests_cant": "The claim is about all pairs of inputs.", "anchors": ["scri/utilities.py:fletcher32"]}
{"id": "C06", "title": "monotonize keeps exactly the running records of the time axis", "statement": "index_is_monotonic / monotonic_indices / monotonize keep the first sample, drop every later sample that does not strictly exceed (or, for decreasing data, fall below) all previously kept samples, and so return a strictly monotonic time sequence; filtering an already strictly monotonic series is the identity and filtering twice equals filtering once.", "quantifier": "all time sequences over a linear order, any length", "why_tests_cant": "The filter carries a running extremum, so the decision at index i depends on the whole prefix.", "anchors": ["scri/SpEC/file_io/__init__.py:index_is_monotonic", "scri/SpEC/file_io/__init__.py:monotonic_indices", "scri/SpEC/file_io/__init__.py:monotonize"]}
{"id": "C07", "title": "Mode indexing is a bijection", "statement": "For any ell_min <= ell_max, W.LM lists every (ell, m) with ell_min<=ell<=ell_max, |m|<=ell exactly once, W.index(ell, m) is its position, the number of modes is (ell_max+1)^2-ell_min^2, LM[index(ell,m)]=(ell,m); indices() agrees with index() on lists of modes and refuses arrays that are not integer (n, 2) arrays. Neither function checks that (ell, m) is in the range.", "quantifier": "all ell_min, ell_max, ell, m", "why_tests_cant": "Quadratic index arithmetic has to be right for every ell range; tests sample a few.", "anchors": ["scri/waveform_modes.py:WaveformModes.index", "scri/waveform_modes.py:WaveformModes.indices", "scri/waveform_modes.py:WaveformModes.n_modes"]}
{"id": "C08", "title": "Conjugate-pair transform is lossless", "statement": "convert_from_conjugate_pairs undoes convert_to_conjugate_pairs and vice versa; the m=0 modes are only kept, the (ell,m),(ell,-m) pair becomes (sum, difference)/sqrt2 with the conjugate of the negative-m mode, and the norm at each time is preserved.", "quantifier": "all ell ranges, all mode data, all times", "why_tests_cant": "Must hold for every data array, and depends on the index arithmetic for +m and -m for every ell.", "anchors": ["scri/waveform_modes.py:WaveformModes.convert_to_conjugate_pairs", "scri/waveform_modes.py:WaveformModes.convert_from_conjugate_pairs"]}
{"id": "C09", "title": "Parity projections decompose the waveform", "statement": "For each of x, y, z and total parity: the conjugate operation is an involution (on data and on frame), the symmetric and antisymmetric parts add up to the original data, the symmetric part is fixed by the operation, the antisymmetric part is negated, and each projection is idempotent; the composition of the x, y and z operations is the total parity operation; objects with an unknown data type or fewer than two modes are refused.", "quantifier": "all waveforms of all ell ranges, all data", "why_tests_cant": "Signs depend on the parity of ell and m and on spin weight; the claim is about every mode of every waveform.", "anchors": ["scri/waveform_modes.py:WaveformModes.parity_conjugate", "scri/waveform_modes.py:WaveformModes.x_parity_conjugate", "scri/waveform_modes.py:WaveformModes.y_parity_conjugate", "scri/waveform_modes.py:WaveformModes.z_parity_conjugate"]}
{"id": "C10", "title": "Eth ladder factors are consistent", "statement": "ladder_factor accepts exactly the strings made of '+', '-', '\u00f0', '\u00f0\u0305' and lists of +1/-1, and rejects everything else with ValueError; applying a sequence of eth/ethbar operations gives the product of the successive single-step factors evaluated at the running spin weight, the NP and GHP conventions differ by exactly (1/sqrt2)^n, ethbar-eth on spin weight s is multiplication by -(ell-s)(ell+s+1), and modes with ell < |s| at any intermediate stage are annihilated.", "quantifier": "all operation strings of any length, all spin weights, all ell", "why_tests_cant": "Operation strings are unbounded sequences; the claim needs induction over them.", "anchors": ["scri/waveform_modes.py:WaveformModes.ladder_factor", "scri/waveform_modes.py:WaveformModes.apply_eth"]}
{"id": "C11", "title": "Constant rotations act as a group", "statement": "Rotating the decomposition basis by R1 and then by R2 equals rotating once by R1*R2 in both data and stored frame; rotating by a unit rotor R and then by its inverse restores data and frame (a waveform without a frame ends with the identity rotor as its frame); the norm at each time is unchanged; modes of different ell never mix.", "quantifier": "all rotors, all waveforms, all ell ranges", "why_tests_cant": "Group laws quantify over all pairs of rotors and data; the implementation multiplies in place through a workspace.", "anchors": ["scri/rotations.py:rotate_decomposition_basis", "scri/rotations.py:rotate_decomposition_basis_by_constant"]}
{"id": "C12", "title": "Time-dependent rotations: frame and data stay consistent", "statement": "After any sequence of constant and time-series rotations of the decomposition basis, the waveform's data expressed back in the inertial frame with its stored frame equal the original inertial-frame data; to_inertial_frame always undoes any such sequence.", "quantifier": "all finite sequences of rotations, all waveforms with n_times>=2", "why_tests_cant": "The property is an invariant over all histories of rotations.", "anchors": ["scri/rotations.py:rotate_decomposition_basis", "scri/rotations.py:rotate_decomposition_basis_by_series", "scri/rotations.py:to_inertial_frame", "scri/rotations.py:to_corotating_frame", "scri/rotations.py:to_coprecessing_frame"]}
{"id": "C13", "title": "Rotation of frames of mixed shapes", "statement": "For every combination of stored-frame shape (none, one rotor, one per time) and given-rotor shape (one, one per time, other), rotate_decomposition_basis either raises ValueError or leaves the waveform with a frame of length 0, 1 or n_times equal to the pointwise product old*given.", "quantifier": "all shapes of stored and given frame, all n_times", "why_tests_cant": "Combinatorial case split over shapes with numpy broadcasting; failures occur only in rarely used combinations.", "anchors": ["scri/rotations.py:rotate_decomposition_basis"]}
{"id": "C14", "title": "History is append-only and depth returns to zero", "statement": "For every sequence of public operations (nested arbitrarily) that complete normally, the waveform's history only grows at the end, only the outermost decorated operation writes its entry, and the history depth after the sequence equals the depth before it.", "quantifier": "all finite call trees of decorated operations, with or without exceptions", "why_tests_cant": "Nesting depth and order are unbounded.", "anchors": ["scri/waveform_base.py:waveform_alterations", "scri/waveform_base.py:WaveformBase._append_history"]}
{"id": "C15", "title": "Waveform numbers are unique and copies are independent", "statement": "In any program history of constructions and copies, each newly constructed waveform gets a number larger than all earlier ones; a copy has equal data and mutations of the copy's arrays are not visible in the original.", "quantifier": "all finite sequences of construct/copy/deepcopy/pickle operations", "why_tests_cant": "History-dependent property of a global counter.", "anchors": ["scri/waveform_base.py:WaveformBase.__init__", "scri/waveform_base.py:WaveformBase.copy", "scri/waveform_base.py:WaveformBase.deepcopy", "scri/waveform_base.py:WaveformBase.__setstate__"]}
{"id": "C16", "title": "ensure_validity accepts exactly consistent waveforms", "statement": "ensure_validity(alter=False, assertions=False) returns True only if every listed consistency condition (known types, strictly increasing times, matching shapes, frame length 0, 1 or n_times, finite data, mode count matching ell range) holds; with assertions it raises iff a condition fails; with alter=True it leaves a valid waveform untouched.", "quantifier": "all waveform objects", "why_tests_cant": "Conjunction of conditions over unbounded arrays; a missed condition shows only for the particular corrupt object.", "anchors": ["scri/waveform_base.py:WaveformBase.ensure_validity", "scri/waveform_modes.py:WaveformModes.ensure_validity", "scri/waveform_grid.py:WaveformGrid.ensure_validity"]}
{"id": "C17", "title": "Slicing a WaveformModes by time and ell", "statement": "W[a:b] and W[a:b, l1:l2] return the waveform restricted to those times and to l1 <= ell < l2, with times, frame, data and LM all consistent, for every Python slice; every other key raises.", "quantifier": "all slices (positive, negative, absent bounds), all waveforms", "why_tests_cant": "Python slice semantics has many corner cases (0, negative, None) that interact with the ell offset.", "anchors": ["scri/waveform_modes.py:WaveformModes.__getitem__", "scri/waveform_base.py:WaveformBase.__getitem__"]}
{"id": "C18", "title": "Weights and scaling tables are consistent; SI and dimensionless conversion scale correctly", "statement": "For every data type the spin, conformal, radius and mass weights agree with the definitions of the Bondi quantities (the conformal weight with the r-scaling removed is the same for all Weyl components), SI_units multiplies times by M and data by the dimensionally correct power of M and R, and make_variable_dimensionless is undone by the inverse scaling and is idempotent.", "quantifier": "all data types, all masses and radii, all data", "why_tests_cant": "The scaling factors must hold for all masses, and repeated application must be idempotent for any flag history.", "anchors": ["scri/__init__.py:SpinWeights", "scri/__init__.py:ConformalWeights", "scri/__init__.py:RScaling", "scri/__init__.py:MScaling", "scri/waveform_base.py:WaveformBase.SI_units", "scri/SpEC/file_io/__init__.py:make_variable_dimensionless"]}
{"id": "C19", "title": "Data types translate consistently between SpEC and scri and are recognised from names", "statement": "Writing any data type as a SpEC code and reading it back gives the same type; codes and types both programs know correspond one to one; an unknown code is refused; every file name is recognised as the quantity its prefix names, whatever the directory, the rest of the name, the suffix and the case.", "quantifier": "all type codes, all file names", "why_tests_cant": "File names are arbitrary strings; substring matching misfires only for some of them.", "anchors": ["scri/SpEC/file_io/__init__.py:translate_data_types_GWFrames_to_waveforms", "scri/SpEC/file_io/__init__.py:translate_data_types_waveforms_to_GWFrames", "scri/SpEC/file_io/__init__.py:read_from_h5", "scri/extrapolation.py:datatype_from_filename"]}
{"id": "C20", "title": "Angular momentum operators on modes have the right matrix elements", "statement": "LVector(W) is the expectation of the angular momentum operator in the inner product of modes: it is real for W,W, LdtVector(W) is the imaginary part of <W|L|dW/dt>, z component is sum of m|f|^2, both vanish when W is zero, and they are additive over ell blocks.", "quantifier": "all mode data, all ell ranges, all times", "why_tests_cant": "Identities over all complex data for unbounded ell; loop boundaries m=+-ell are where errors hide.", "anchors": ["scri/mode_calculations.py:_LVector", "scri/mode_calculations.py:_LdtVector"]}
{"id": "C21", "title": "LLMatrix is the symmetric matrix <L_a L_b> with the right trace", "statement": "LLMatrix(W) at each time is real, symmetric, positive semidefinite, with trace sum ell(ell+1)|f|^2; LLComparisonMatrix(W1,W2) at [a,b] is the sum over modes <W1| L_a L_b |W2>, so that its symmetrized real part for W1=W2=W is LLMatrix(W).", "quantifier": "all mode data, all ell ranges, all times", "why_tests_cant": "Symmetric/positive for every data vector; asymmetry shows up only when the particular component is nonzero.", "anchors": ["scri/mode_calculations.py:_LLMatrix", "scri/mode_calculations.py:_LLComparisonMatrix"]}
{"id": "C22", "title": "Energy flux is non-negative and zero only for vanishing news", "statement": "energy_flux(h) is (1/16 pi) times the sum of |hdot|^2 over all modes, never negative, and zero exactly when every mode of hdot is zero.", "quantifier": "all mode data, all ell ranges", "why_tests_cant": "Statement about all data.", "anchors": ["scri/flux.py:energy_flux"]}
{"id": "C23", "title": "Sparse and dense expectation values agree; flux matrices obey the selection rules", "statement": "For every sparse operator, matrix_expectation_value computes the full double sum <a|M|b> over modes present in both waveforms, independent of the order of the sparse entries; matrix elements of p_z and j_z connect only equal m, those of p_plusminus and j_plusminus only m differing by one, and |ell difference| <= 1.", "quantifier": "all operators, all waveforms with any ell ranges", "why_tests_cant": "Quantifies over operators, ell ranges and data; off-by-one at ell_max boundaries is invisible to a fixed test waveform.", "anchors": ["scri/flux.py:matrix_expectation_value", "scri/flux.py:sparse_expectation_value", "scri/flux.py:p_z", "scri/flux.py:p_plusminus", "scri/flux.py:j_z", "scri/flux.py:j_plusminus", "scri/flux.py:swsh_indices_to_matrix_indices"]}
{"id": "C24", "title": "transition_function is a monotone step with the advertised limits", "statement": "transition_function(x,x0,x1,y0,y1) is exactly y0 for x<=x0, exactly y1 for x>=x1, strictly between y0 and y1 inside, monotone, antisymmetric about the midpoint; its derivative is the claimed derivative; bump_function equals y0 outside, y1 on the plateau, y2 after.", "quantifier": "all real arguments and endpoints x0<x1", "why_tests_cant": "Analytic statement over all reals.", "anchors": ["scri/utilities.py:transition_function", "scri/utilities.py:transition_function_derivative", "scri/utilities.py:bump_function"]}
{"id": "C25", "title": "transition_to_constant leaves early data alone and is constant late", "statement": "transition_to_constant(f,t,t1,t2) equals f for t<=t1 and is constant for t>=t2.", "quantifier": "all series f and increasing t, any t1<t2", "why_tests_cant": "Relies on index searches and cumulative integration for every grid.", "anchors": ["scri/utilities.py:transition_to_constant"]}
{"id": "C26", "title": "intersection builds an admissible common time grid", "statement": "intersection(t1,t2,min_step,min_time,max_time) returns a strictly increasing sequence starting at max(t1[0],t2[0],min_time), with every later entry strictly below the common end, each step at least min_step and at least the local spacing of one of the inputs as chosen by the finer grid, and never writes outside its len(t1)+len(t2) buffer; disjoint ranges raise ValueError.", "quantifier": "all pairs of strictly increasing time arrays, all optional bounds", "why_tests_cant": "Buffer safety needs a ranking argument over two advancing indices for arrays of any length.", "anchors": ["scri/extrapolation.py:intersection"]}
{"id": "C27", "title": "extrapolation.monotonic_indices terminates with steps larger than MinTimeStep", "statement": "monotonic_indices(T, MinTimeStep) terminates and returns increasing indices ending with the last sample such that consecutive kept times differ by more than MinTimeStep.", "quantifier": "all time arrays, all MinTimeStep", "why_tests_cant": "Termination for all inputs.", "anchors": ["scri/extrapolation.py:monotonic_indices"]}
{"id": "C28", "title": "Extrapolation is exact on polynomial falloff", "statement": "If each mode at each time is a polynomial in 1/r of degree at most N and at least N+1 distinct radii are supplied, extrapolation of order N returns exactly the leading coefficient, and is linear in the data and independent of the order of the radii.", "quantifier": "all polynomial data, all sets of distinct radii, all orders N", "why_tests_cant": "Uniqueness of least-squares fits over all radii sets.", "anchors": ["scri/extrapolation.py:_Extrapolate"]}
{"id": "C29", "title": "Extrapolation runs leave one consistent marker at every crash point", "statement": "The marker files written by RunExtrapolation classify each run as unstarted, started but unfinished, errored or finished; at every crash point the classification functions put the run in the right class and a rerun removes stale markers.", "quantifier": "all interleavings of run, crash and rerun", "why_tests_cant": "Crash points between file operations.", "anchors": ["scri/extrapolation.py:RunExtrapolation", "scri/extrapolation.py:UnstartedExtrapolations", "scri/extrapolation.py:StartedButUnfinished", "scri/extrapolation.py:Errored", "scri/extrapolation.py:NewerDataThanExtrapolation"]}
{"id": "C30", "title": "ABD transformation mixes Weyl components by the binomial law", "statement": "AsymptoticBondiData.transform replaces psi_n by k^-3 sum_j C(4-n,j) (-eth u'/k ...)^j psi_{n+j} (and sigma by its inhomogeneous law) at every grid point; the identity transformation is the identity.", "quantifier": "all field values, all conformal factors k>0, all complex eth u'", "why_tests_cant": "Polynomial identities over all complex values; the code uses nested Horner forms.", "anchors": ["scri/asymptotic_bondi_data/transformations.py:transform"]}
{"id": "C31", "title": "Composing two ABD transformations equals the combined one", "statement": "Applying the pointwise mixing with (k1,e1) and then (k2,e2) equals the mixing with the composed parameters, and every mixing is undone by the one with inverse parameters.", "quantifier": "all k1,k2>0, all complex e1,e2, all fields", "why_tests_cant": "Group law.", "anchors": ["scri/asymptotic_bondi_data/transformations.py:transform"]}
{"id": "C32", "title": "Retained time slices never extrapolate", "statement": "Every u' retained by a BMS transformation corresponds, in every direction of the grid, to a u inside the original time range; boosts of speed < 1 give strictly positive finite conformal factors bounded by the Doppler factors.", "quantifier": "all grids, boosts |v|<1, supertranslations and time axes", "why_tests_cant": "Universal over directions and boosts.", "anchors": ["scri/asymptotic_bondi_data/transformations.py:transform", "scri/asymptotic_bondi_data/transformations.py:conformal_factors", "scri/waveform_grid.py:WaveformGrid.from_modes"]}
{"id": "C33", "title": "from_initial_values satisfies the constraint equations at all times", "statement": "The data built by from_initial_values from polynomial shear and initial values satisfy the Bianchi identities psi0..psi2 evolution, psi3, psi4 definitions and the reality condition of the mass aspect at every time.", "quantifier": "all initial values and coefficients, all times, any field algebra (bilinear products, linear eth)", "why_tests_cant": "Identity in time polynomials with arbitrary coefficients.", "anchors": ["scri/asymptotic_bondi_data/from_initial_values.py:from_initial_values", "scri/asymptotic_bondi_data/constraints.py"]}
{"id": "C34", "title": "Poincare charges from aspects", "statement": "The charge-vector extraction is real for real aspects, linear, gives (constant, direction) components, bondi rest mass squared is the Minkowski norm of the four-momentum, and the center-of-mass charge is the boost charge plus time times momentum.", "quantifier": "all aspects with ell_max >= 1, all times", "why_tests_cant": "Linear identities for all data.", "anchors": ["scri/asymptotic_bondi_data/bms_charges.py:charge_vector_from_aspect", "scri/asymptotic_bondi_data/bms_charges.py:bondi_rest_mass", "scri/asymptotic_bondi_data/bms_charges.py:bondi_boost_charge", "scri/asymptotic_bondi_data/bms_charges.py:bondi_CoM_charge"]}
{"id": "C35", "title": "Transformation keyword processing imposes a real supertranslation with fixed override order", "statement": "Whatever combination of supertranslation, spacetime_translation, space_translation and time_translation is given, the resulting supertranslation modes satisfy the reality condition, later-listed specific keywords override the ell<=1 part of earlier ones in the documented order, an already real supertranslation is unchanged, and ill-formed sizes raise.", "quantifier": "all keyword combinations and mode vectors", "why_tests_cant": "Combinatorial over keywords and unbounded ell.", "anchors": ["scri/asymptotic_bondi_data/transformations.py:_process_transformation_kwargs", "scri/waveform_grid.py:process_transformation_kwargs"]}
{"id": "C36", "title": "BMS transformations form a group", "statement": "Composition of BMS transformations is associative, has the identity, and inverse() gives a two-sided inverse, in the sense of the action on supertranslations and the Lorentz group.", "quantifier": "all BMS elements", "why_tests_cant": "Group axioms.", "anchors": ["scri/bms_transformations.py:BMSTransformation.__mul__", "scri/bms_transformations.py:BMSTransformation.inverse"]}
{"id": "C37", "title": "Reordering a BMS transformation preserves the group element", "statement": "For any two orders of (supertranslation, frame_rotation, boost), reorder changes the parameters but not the group element, reordering to the same order is the identity, and reordering there and back restores the parameters; invalid orders raise.", "quantifier": "all orders, all BMS elements", "why_tests_cant": "Path through adjacent transpositions differs for each pair of orders.", "anchors": ["scri/bms_transformations.py:BMSTransformation.reorder"]}
{"id": "C38", "title": "Average center-of-mass fit minimises the residual", "statement": "estimate_avg_com_motion returns the initial position, velocity (and acceleration) that minimise the time integral of |com(t) - x0 - v t (- a t^2/2)|^2 over the window, and are exact for motion of that form.", "quantifier": "all trajectories given by their moments, all windows t1<t2", "why_tests_cant": "Optimality over all alternatives.", "anchors": ["scri/SpEC/com_motion.py:estimate_avg_com_motion"]}
{"id": "C39", "title": "rotation_from_spin_charge aligns the z axis with the spin", "statement": "The rotor built from a spin vector chi rotates z onto the direction of chi, for every chi not antiparallel to z.", "quantifier": "all vectors", "why_tests_cant": "Degenerate inputs.", "anchors": ["scri/asymptotic_bondi_data/map_to_superrest_frame.py:rotation_from_spin_charge"]}
{"id": "C40", "title": "Leading-order PN amplitudes obey the equatorial symmetry", "statement": "pn_leading_order_amplitude(ell,m) = (-1)^ell conj(pn_leading_order_amplitude(ell,-m)) for every mode, and equal-mass odd-m modes vanish.", "quantifier": "all ell>=2, |m|<=ell, all frequencies and mass ratios", "why_tests_cant": "All modes.", "anchors": ["scri/sample_waveforms.py:pn_leading_order_amplitude"]}
{"id": "C41", "title": "Frame-fixing iteration returns its best iterate", "statement": "The superrest-frame and CoM iteration loops return the transformation with the smallest recorded error among all those they tried, stop as soon as the tolerance is met, and never run more than the allowed number of iterations.", "quantifier": "all error sequences (including NaN) and limits", "why_tests_cant": "All sequences of floating errors.", "anchors": ["scri/asymptotic_bondi_data/map_to_superrest_frame.py:map_to_superrest_frame"]}
{"id": "C42", "title": "Release bump rule precedence", "statement": "The bump-rule parser returns the first matching rule in the documented precedence for every commit message, defaulting to patch.", "quantifier": "all commit messages", "why_tests_cant": "All strings.", "anchors": [".github/scripts/parse_bump_rule.py"]}
{"id": "C43", "title": "Equality of waveforms up to rounding", "statement": "_allclose(W, W) is true for every waveform with finite data; the verdict is true exactly if the types and all compared attributes agree within the tolerances, whatever report_all is.", "quantifier": "all pairs of waveforms", "why_tests_cant": "All pairs.", "anchors": ["scri/waveform_base.py:WaveformBase._allclose"]}
{"id": "C44", "title": "Corotating paired-XOR storage round trip", "statement": "A waveform saved in the RPXMB-style format and loaded again has bit-identical corotating, tolerance-rounded data, for every tolerance setting.", "quantifier": "all data, all tolerances including 0", "why_tests_cant": "The encoder pipeline has a conditional stage that the decoder must mirror for every setting.", "anchors": ["scri/SpEC/file_io/corotating_paired_xor.py:save", "scri/SpEC/file_io/corotating_paired_xor.py:load"]}
{"id": "C45", "title": "inner_product is a Hermitian form", "statement": "WaveformModes.inner_product at each time is conjugate symmetric, linear in the second and conjugate-linear in the first argument, positive, and requires matching ranges.", "quantifier": "all waveforms, all ell ranges", "why_tests_cant": "All data.", "anchors": ["scri/waveform_modes.py:WaveformModes.inner_product"]}
{"id": "C46", "title": "norm and max_norm_index", "statement": "norm is the sum of squared magnitudes at each time (optionally its square root); max_norm_index returns the index of the first maximum after the skipped initial fraction.", "quantifier": "all data, all skip fractions", "why_tests_cant": "All arrays.", "anchors": ["scri/waveform_base.py:WaveformBase.norm", "scri/waveform_base.py:WaveformBase.max_norm_index"]}
{"id": "C47", "title": "truncate never changes data by more than the tolerance and is idempotent", "statement": "WaveformModes.truncate(tol) changes each real and imaginary part by at most the tolerance scaled by the norm at that time, and truncating again with the same absolute tolerance changes nothing.", "quantifier": "all data, all tolerances", "why_tests_cant": "All reals.", "anchors": ["scri/waveform_modes.py:WaveformModes.truncate"]}
{"id": "C48", "title": "grid_multiply ell range and products", "statement": "grid_multiply of modes time series with ell_max a and b, with a working ell_max of at least a + b (the default), returns at every time the modes of the exact product of the two functions on the sphere up to the chosen output ell_max (default a); its spin weight is the sum of the spin weights; different times, or an output ell_max beyond the working one, raise ValueError.", "quantifier": "all ell_max combinations and keyword arguments", "why_tests_cant": "All combinations.", "anchors": ["scri/modes_time_series.py:ModesTimeSeries.grid_multiply"]}
{"id": "C49", "title": "Superrest differential operator and its inverse", "statement": "D applied after D-inverse is the identity on ell>=2 modes and zero on ell<2, D equals ethbar^2 eth^2 in the GHP convention.", "quantifier": "all ell, all mode data", "why_tests_cant": "All ell.", "anchors": ["scri/asymptotic_bondi_data/map_to_superrest_frame.py"]}
{"id": "C50", "title": "ABD <-> WaveformModes conversions are mutually inverse", "statement": "MT_to_WM and WM_to_MT restore each other up to zero padding of the low-ell modes; h = 2 conj(sigma) with the mode relabelling (ell,m)->(ell,-m).", "quantifier": "all mode data", "why_tests_cant": "All data.", "anchors": ["scri/asymptotic_bondi_data/map_to_superrest_frame.py:MT_to_WM", "scri/asymptotic_bondi_data/map_to_superrest_frame.py:WM_to_MT"]}
{"id": "C51", "title": "The descriptor string identifies the stored quantity", "statement": "Two waveforms with known data type have the same descriptor_string only if they have the same data type, r_is_scaled_out and m_is_scaled_out.", "quantifier": "all data types and scaling flags", "why_tests_cant": "Injectivity relates every pair of inputs.", "anchors": ["scri/waveform_base.py:WaveformBase.descriptor_string"]}
{"id": "C52", "title": "angular_velocity minimises the time dependence of the modes", "statement": "The vector returned by angular_velocity(W) (without frame velocity) minimises, over all angular velocities omega, the squared norm of dW/dt + i omega.L W at each time; it is the unique minimiser when no rotation leaves W unchanged, and equals v for modes rotating rigidly with velocity v.", "quantifier": "all mode data, all ell ranges, all times, all candidate angular velocities", "why_tests_cant": "Optimality compares with every other vector, for every data.", "anchors": ["scri/mode_calculations.py:angular_velocity", "scri/mode_calculations.py:LdtVector", "scri/mode_calculations.py:LLMatrix"]}
{"id": "C53", "title": "LLDominantEigenvector gives a continuous choice of sign", "statement": "LLDominantEigenvector only multiplies each eigenvector by +1 or -1 (and normalises); at the given index the result is on the side of the rough direction; and consecutive vectors of the result are on the same side of each other (non-negative dot product), so that a continuous axis gives a continuous result.", "quantifier": "all sequences of unit vectors, all rough directions and indices", "why_tests_cant": "Sign choices propagate along the whole sequence; a test sees only the sequences it lists.", "anchors": ["scri/mode_calculations.py:LLDominantEigenvector", "scri/mode_calculations.py:_LLDominantEigenvector"]}
{"id": "C54", "title": "The radiated momentum never exceeds the radiated energy", "statement": "momentum_flux(h) is a real vector at each time whose components are the expectation values of the direction cosines in hdot over 16 pi; p_z is Hermitian and p_minus is the adjoint of p_plus; and the magnitude of the momentum flux never exceeds the energy flux at that time.", "quantifier": "all mode data, all ell ranges with at least two modes", "why_tests_cant": "An inequality over all mode data which holds only if every coefficient of the three operators and the truncation at both ends of the ell range are right.", "anchors": ["scri/flux.py:momentum_flux", "scri/flux.py:p_z", "scri/flux.py:p_plusminus", "scri/flux.py:energy_flux"]}
{"id": "C55", "title": "The angular momentum flux is that of the rotation generators", "statement": "angular_momentum_flux(h, hdot) has the components Im<hdot|L_a|h>/16 pi with the angular momentum operators L_a, whether hdot is given or computed; for modes rotating rigidly with angular velocity Omega, Omega . dJ/dt equals dE/dt; other data types are rejected.", "quantifier": "all mode data, all ell ranges with at least two modes, all angular velocities", "why_tests_cant": "Quantifies over all data and all directions.", "anchors": ["scri/flux.py:angular_momentum_flux", "scri/flux.py:j_z", "scri/flux.py:j_plusminus"]}
{"id": "C56", "title": "Each frame-fixing solver changes only its own part", "statement": "The transformation returned by the rotation solver has no supertranslation and no boost; that of the center-of-mass solver has no rotation and only supertranslation modes with ell<=1; that of the supertranslation solver has no rotation, no boost and no modes with ell<=1. This holds for every input on which they return, also if no iterate was accepted.", "quantifier": "all data, all charges, all error sequences, all limits", "why_tests_cant": "All histories of the iteration.", "anchors": ["scri/asymptotic_bondi_data/map_to_superrest_frame.py:supertranslation_to_map_to_superrest_frame", "scri/asymptotic_bondi_data/map_to_superrest_frame.py:com_transformation_to_map_to_superrest_frame", "scri/asymptotic_bondi_data/map_to_superrest_frame.py:rotation_to_map_to_superrest_frame"]}
{"id": "C57", "title": "rotation(abd, phi) multiplies every mode by a phase", "statement": "rotation(abd, phi) multiplies the mode (ell,m) of the shear and of the five Weyl scalars by exp(i m phi) at each time, and keeps times and ell_max.", "quantifier": "all data, all angles, all modes", "why_tests_cant": "All data and angles.", "anchors": ["scri/asymptotic_bondi_data/map_to_superrest_frame.py:rotation"]}
{"id": "C58", "title": "transformation_from_CoM_charge brings a uniformly moving center of mass to rest", "statement": "If the charge is x + v t with |v| < 1, the transformation has boost v, and in the new frame the center of mass stays at the origin: its worldline has the light cones that start there.", "quantifier": "all positions, all subluminal velocities, all lists of times with two different ones", "why_tests_cant": "All motions and samplings.", "anchors": ["scri/asymptotic_bondi_data/map_to_superrest_frame.py:transformation_from_CoM_charge"]}
{"id": "C59", "title": "Differences of two waveforms", "statement": "B.compare(A) returns, at common times, the modes of A minus the modes of B, mode by mode, and a frame that takes the frame of B into the frame of A up to one sign for all times; W.compare(W) has data 0.", "quantifier": "all pairs of waveforms, with any modes, times and frames", "why_tests_cant": "All pairs of time grids, mode ranges and frames.", "anchors": ["scri/waveform_base.py:WaveformBase.compare"]}
{"id": "C60", "title": "BMS transformations of one waveform", "statement": "W.transform with a time translation and a frame rotation returns, at the times t - tau, exactly the modes of the rotated field; without arguments it returns the modes it was given, and two such transformations in a row are the one with the product of the rotors and the sum of the translations. For any boost and supertranslation the grid values are the field in the aberrated direction, at times k (u - alpha), times the power of the Doppler factor k given by the conformal weight, with the shear of the supertranslation subtracted, and psi0 to psi3 mixed with the components of higher index.", "quantifier": "all inertial waveforms with at least four increasing times and any mode range from 0; all accepted keywords", "why_tests_cant": "All transformations, all mode ranges and all grid sizes; a test compares a few with tolerances.", "anchors": ["scri/waveform_grid.py:WaveformGrid.from_modes", "scri/waveform_grid.py:WaveformGrid.to_modes", "scri/waveform_grid.py:WaveformGrid.transform", "scri/waveform_modes.py:WaveformModes.transform"]}
{"id": "C61", "title": "BMS transformations of asymptotic Bondi data, from modes to modes", "statement": "abd.transform with a time translation and a frame rotation returns, at the times t - tau, for each of psi0, ..., psi4 and sigma exactly the modes of the rotated field, up to the output ell_max; without arguments it returns the modes it was given, two such transformations in a row are the one with the product of the rotors and the sum of the translations, and each field comes out as WaveformModes.transform gives it alone. For any boost and supertranslation the new modes are the analysis, on a grid, of the fields of the transformation law in the aberrated directions, at the times k (u - alpha); the new times are exactly those for which all directions have data.", "quantifier": "all data with at least two increasing times, any ell_max, any modes; all accepted keywords, including the working and output ell_max", "why_tests_cant": "All transformations, ell_max and data; a test compares a few with tolerances.", "anchors": ["scri/asymptotic_bondi_data/transformations.py:transform", "scri/asymptotic_bondi_data/transformations.py:boosted_grid", "scri/asymptotic_bondi_data/transformations.py:conformal_factors"]}
{"id": "C62", "title": "Asymptotic Bondi data from waveforms in files", "statement": "create_abd_from_h5 puts the waveforms it has read into one object: at each of the times that are later than all before, each field has the modes of the waveform of its name times the factor of the convention, from that waveform's ell_min on, and zeros otherwise; the shear is half the complex conjugate of the strain. With the convention 'SpEC' this is the change of convention under which the transformation laws of WaveformModes and AsymptoticBondiData are the same (convert, then transform = transform, then convert), and the property h of the result is the given strain. With a mass the result is that for dimensionless waveforms. Interpolation never extrapolates, loses at most the two requested times nearest to the ends, and keeps the modes at common times. Missing waveforms, unknown conventions and different sets of times are rejected.", "quantifier": "all sets of waveforms with common times and ell_max (any ell_min each, any times), both conventions, any mass, worldtube radius and times for the interpolation; for the laws: all boosts and real supertranslations, all directions and times", "why_tests_cant": "All modes, times and transformations; a test converts one file.", "anchors": ["scri/SpEC/file_io/__init__.py:create_abd_from_h5", "scri/SpEC/file_io/__init__.py:make_variable_dimensionless", "scri/asymptotic_bondi_data/__init__.py:AsymptoticBondiData.h", "scri/asymptotic_bondi_data/__init__.py:AsymptoticBondiData.interpolate"]}
{"id": "C63", "title": "Fluxes are integrals over the sphere", "statement": "The energy flux and the momentum flux, which are computed from the modes, are the integrals over the sphere of the square of the news and of that square times the outward unit vector: energy_flux(h) = (1/16 pi) of the integral of |dh/dt|^2 and momentum_flux(h)_i = (1/16 pi) of the integral of |dh/dt|^2 n_i, where dh/dt is the function of spin weight -2 that has the given modes. The matrix elements of p_z and p_plusminus are the integrals of two harmonics and cos(theta) or sin(theta) exp(+-i phi), and the harmonics are orthonormal.", "quantifier": "all waveforms with any ell_min >= 2 (energy) or >= 0 (momentum), any ell_max, any modes and times; all spin weights for the matrix elements and the orthonormality", "why_tests_cant": "An integral over the sphere for every ell and m; a test compares a few matrix elements.", "anchors": ["scri/flux.py:energy_flux", "scri/flux.py:momentum_flux", "scri/flux.py:p_z", "scri/flux.py:p_plusminus", "scri/flux.py:swsh_indices_to_matrix_indices"]}
{"id": "C64", "title": "Fluxes of a rotated waveform", "statement": "After rotate_decomposition_basis with a unit quaternion the energy flux is the same at every time, and the momentum flux is the same vector, with its components with respect to the rotated axes: P = Q P' Q^-1.", "quantifier": "all waveforms (any ell range, modes and times), all unit quaternions", "why_tests_cant": "All modes of all degrees and all rotations; a test tries one.", "anchors": ["scri/flux.py:energy_flux", "scri/flux.py:momentum_flux", "scri/rotations.py:rotate_decomposition_basis"]}
{"id": "C65", "title": "Angular momentum of a rotated waveform", "statement": "After rotate_decomposition_basis with a unit quaternion Q, LVector, LdtVector, the angular velocity and the angular momentum flux are the same vectors with their components with respect to the rotated axes (v = Q v' Q^-1), and LLMatrix is the same tensor; in particular its eigenvectors, among them the dominant one, turn with the axes.", "quantifier": "all data (any ell range and modes, also two different waveforms for LVector and LdtVector), all unit quaternions; for the angular velocity all modes that no rotation leaves unchanged", "why_tests_cant": "All modes of all degrees and all rotations; a test tries a few rotors.", "anchors": ["scri/mode_calculations.py:LVector", "scri/mode_calculations.py:LdtVector", "scri/mode_calculations.py:LLMatrix", "scri/mode_calculations.py:LLDominantEigenvector", "scri/mode_calculations.py:angular_velocity", "scri/flux.py:angular_momentum_flux", "scri/rotations.py:rotate_decomposition_basis"]}
{"id": "C66", "title": "The boost flux is the documented integral", "statement": "boost_flux(h, hdot) is, at every time u, -1/32pi times the integral over the sphere of the expression its documentation quotes (products of h, hdot, their eth and ethbar derivatives and the components of the unit vector); it is a vector under rotate_decomposition_basis; when the origin of time is shifted by tau it changes by tau times the momentum flux; poincare_fluxes returns the four fluxes of the same waveform; data that are not a strain are rejected.", "quantifier": "all strains h and hdot of spin weight -2 on the same times and the same ell range, any ell_min and ell_max, all times, all unit quaternions, all shifts of time", "why_tests_cant": "All modes of all degrees, the value of an integral over the sphere, and all rotations and shifts.", "anchors": ["scri/flux.py:boost_flux", "scri/flux.py:poincare_fluxes", "scri/rotations.py:rotate_decomposition_basis"]}
{"id": "C67", "title": "eth and ethbar act as the differential operators on the sphere", "statement": "The modes that apply_eth (and eth, ethbar) returns for a sequence of operations are those of the function obtained from the original one by applying the differential operators eth F = -(d_theta F + (i/sin theta) d_phi F - s cot theta F) and ethbar F = -(d_theta F - (i/sin theta) d_phi F + s cot theta F), with the spin weight followed through the sequence, and divided by sqrt(2) for each operation in the GHP convention; the integrand of the boost flux is therefore the documented one with these operators.", "quantifier": "all sequences of operations, all spin weights, all ranges of ell, all modes, and all directions except the poles", "why_tests_cant": "An identity between derivatives of functions on the sphere, for all degrees ell and all sequences of operators.", "anchors": ["scri/waveform_modes.py:WaveformModes.apply_eth", "scri/waveform_modes.py:WaveformModes.ladder_factor", "scri/flux.py:boost_flux"]}
{"id": "C68", "title": "Angular-momentum sums and the angular momentum flux are integrals over the sphere", "statement": "The components of LVector and LdtVector, the entries of LLMatrix and the angular momentum flux are integrals over the sphere of conj(f) L_i g, conj(f) L_i df/dt (imaginary part), conj(f) L_i L_j f (real part) and conj(dh/dt) L_i h (imaginary part, over 16 pi), where L_x, L_y, L_z are the differential operators that generate rotations of functions of the spin weight of the data; the result of angular_velocity makes the integral of |df/dt + i w.L f|^2 least among all w.", "quantifier": "all modes of any spin weight s and any range of ell with ell_min at least |s|, all times", "why_tests_cant": "The value of an integral of derivatives of arbitrary functions on the sphere, and a minimum over all vectors.", "anchors": ["scri/mode_calculations.py:LVector", "scri/mode_calculations.py:LdtVector", "scri/mode_calculations.py:LLMatrix", "scri/mode_calculations.py:angular_velocity", "scri/flux.py:angular_momentum_flux"]}
{"id": "C69", "title": "Charges and fluxes balance", "statement": "For data that satisfy the equations of Bondi gauge, the charges change at the rates given by the fluxes of the strain h = 2 conj(sigma): the time derivatives of bondi_four_momentum, bondi_angular_momentum and bondi_boost_charge are minus energy_flux and momentum_flux, angular_momentum_flux and boost_flux.", "quantifier": "all psi1, psi2, sigma as functions of time that satisfy the equations of Bondi gauge and the reality of the mass aspect for ell at most 1, all times, all ell_max, whichever of h and dh/dt is given", "why_tests_cant": "An identity between derivatives and integrals of arbitrary functions on the sphere and in time.", "anchors": ["scri/asymptotic_bondi_data/bms_charges.py:bondi_four_momentum", "scri/asymptotic_bondi_data/bms_charges.py:bondi_angular_momentum", "scri/asymptotic_bondi_data/bms_charges.py:bondi_boost_charge", "scri/flux.py:energy_flux", "scri/flux.py:momentum_flux", "scri/flux.py:angular_momentum_flux", "scri/flux.py:boost_flux"]}
{"id": "C70", "title": "Stored BMS transformations come back unchanged", "statement": "After any sequence of to_file calls, with any file modes, files and groups, some of which may fail, from_file gives for each file and group exactly the transformation that the last successful call stored there (frame rotation, boost velocity, supertranslation, order and ell_max), whatever the object was before.  It raises and leaves the object unchanged if there is none.  A call to_file fails exactly if the place is taken, the file is missing (r+), exists (x) or is opened for reading, and then changes nothing.  A copy is equal to the original.", "quantifier": "all BMS transformations that can be constructed, all sequences of calls, all file names, modes and groups (apart from group names that are names of the datasets)", "why_tests_cant": "Unbounded histories of writes to many places, and all values of the attributes.", "anchors": ["scri/bms_transformations.py:BMSTransformation.to_file", "scri/bms_transformations.py:BMSTransformation.from_file", "scri/bms_transformations.py:BMSTransformation.copy", "scri/bms_transformations.py:BMSTransformation.__init__"]}
{"id": "C71", "title": "is_close_to tells whether two BMS transformations are the same", "statement": "is_close_to compares all that makes two transformations differ: it is true exactly if their frame rotations, boost velocities and supertranslations, applied in their orders, agree up to the tolerance; it is reflexive and symmetric.", "quantifier": "all pairs of BMS transformations that can be constructed", "why_tests_cant": "An equivalence between a verdict and the action for all pairs.", "anchors": ["scri/bms_transformations.py:BMSTransformation.is_close_to"]}
{"id": "C72", "title": "ABD objects are independent values with one set of times", "statement": "In any program that creates, copies, interpolates and time-translates AsymptoticBondiData objects and assigns to their times and data, some statements of which may raise: the six series of an object always have the times of the object, and a statement about one object changes nothing that can be observed of another.", "quantifier": "all programs (lists of statements, of any length) with any number of objects, all times and data", "why_tests_cant": "Aliasing between arrays shows only for particular sequences of statements; there are unboundedly many.", "anchors": ["scri/asymptotic_bondi_data/__init__.py:AsymptoticBondiData", "scri/asymptotic_bondi_data/__init__.py:AsymptoticBondiData.copy", "scri/asymptotic_bondi_data/__init__.py:AsymptoticBondiData.interpolate", "scri/modes_time_series.py:ModesTimeSeries.time", "scri/asymptotic_bondi_data/map_to_superrest_frame.py:time_translation"]}
{"id": "C73", "title": "Series of modes in time: construction, interpolation, derivatives and integrals", "statement": "A ModesTimeSeries has the times and data it is given.  interpolate returns the values at the new times of one smooth curve per mode through the data, with the same spin weight, ell range, truncator and shape, and writes them to out if out is given; interpolation at the old times gives the old data; dot, ddot, int and iint give the derivatives and integrals (from the first time) of the same curves.  Wrong shapes, orders above three and non-increasing times are refused.", "quantifier": "all series (any leading axes, number of times and modes), all new times, orders and output arrays", "why_tests_cant": "All shapes and all data; integrals and derivatives of curves are not finite checks.", "anchors": ["scri/modes_time_series.py:ModesTimeSeries.__new__", "scri/modes_time_series.py:ModesTimeSeries.interpolate", "scri/modes_time_series.py:ModesTimeSeries.derivative", "scri/modes_time_series.py:ModesTimeSeries.antiderivative"]}
{"id": "C74", "title": "Waveforms written to H5 files come back", "statement": "A waveform written by write_to_h5, under any name, group and mode, and read by read_from_h5 is the same waveform: times, data, ell range, frame, frame type, data type, scaling flags, version history and added attributes.  A write changes no other file or group.  Whatever file is read, the columns of the result are those of the datasets named after the modes, in the order of the modes.", "quantifier": "all waveforms with monotonic times and any number of times and modes, all file names with .h5 and groups, all contents of the file system, all orders in which HDF5 lists datasets, both formats", "why_tests_cant": "All names, orders of datasets, numbers of modes (sorting of names such as Y_l10 before Y_l2) and histories of files.", "anchors": ["scri/SpEC/file_io/__init__.py:write_to_h5", "scri/SpEC/file_io/__init__.py:read_from_h5"]}
{"id": "C75", "title": "Alignment of a frame with the modes", "statement": "align_decomposition_frame_to_modes multiplies the frame and rotates the modes by one unit rotor, the same for all times.  In the result, at the fiducial time (not before the first or after the last of the rows used), the z axis is along a dominant direction of <LL> of the modes up to ell_max and on the side of the angular velocity, the x axis is on the side of nHat, and the phase of the (2,2) mode is zero.  The function succeeds exactly if the frame is coprecessing, coorbital or corotating with one rotor per time, the fiducial time is inside the waveform and ell_max is not above that of the waveform; otherwise it raises ValueError.", "quantifier": "all waveforms in such frames with unit rotors, with any number of times (at least 2) and modes including degree 2, all fiducial times, all nHat and ell_max, any linear interpolation of the modes, any eigenvector routine", "why_tests_cant": "All modes, frames, fiducial times between samples and at the ends, degenerate and opposite directions.", "anchors": ["scri/rotations.py:get_alignment_of_decomposition_frame_to_modes", "scri/rotations.py:align_decomposition_frame_to_modes", "scri/mode_calculations.py:LLDominantEigenvector"]}
{"id": "C76", "title": "Coprecessing and corotating frames", "statement": "to_coprecessing_frame puts the z axis of every frame along a dominant direction of <LL> (until the transition, if one is asked for), on the side of the rough direction at the given index, rotates the modes and multiplies the frame by the same unit rotors, and marks the waveform as coprecessing.  to_corotating_frame does the same with the integrated angular velocity; z_alignment_region puts the mean of the dominant directions in the region, seen in the corotating frame, along +z; truncate_log_frame returns the logarithm of the rotors actually used, which are multiples of a power of two no further than the tolerance from the exact logarithm.", "quantifier": "all waveforms with at least two times, without a frame or with one rotor per time, all rough directions and indices, transition times, regions and tolerances, any eigenvector and integration routines", "why_tests_cant": "All waveforms, regions, tolerances and options.", "anchors": ["scri/rotations.py:to_coprecessing_frame", "scri/rotations.py:to_corotating_frame", "scri/mode_calculations.py:corotating_frame"]}
{"id": "C77", "title": "Angular momentum and centre of mass in supertranslated frames", "statement": "For Bondi data without radiation, seen in a frame supertranslated by any real function (time translation, space translation a, and modes with ell >= 2) at any time: bondi_four_momentum does not change; CWWY_angular_momentum changes exactly by a x P, so it does not depend on time, time translation or the modes with ell >= 2; bondi_angular_momentum changes in addition by the integral of the mass aspect times the rotation of the supertranslation; under translations alone bondi_angular_momentum changes by a x P and bondi_CoM_charge by E a plus P times the elapsed time.  The potential subtracted by CWWY_angular_momentum has no modes with ell < 2 and \ud835\udd07 takes it to the electric part of the shear.", "quantifier": "all shears, all psi1, psi2 with psi2 + \u00f0\u00b2\u03c3\u0304 real, all real supertranslations with modes up to ell_max, all times, all ell_max >= 1", "why_tests_cant": "All data and all functions on the sphere; the invariance is an identity between integrals of products of four harmonics with derivatives.", "anchors": ["scri/asymptotic_bondi_data/bms_charges.py:CWWY_angular_momentum", "scri/asymptotic_bondi_data/bms_charges.py:bondi_angular_momentum", "scri/asymptotic_bondi_data/bms_charges.py:bondi_CoM_charge", "scri/asymptotic_bondi_data/bms_charges.py:bondi_four_momentum", "scri/asymptotic_bondi_data/transformations.py:transform"]}
{"id": "C78", "title": "Sample waveforms are the functions they say they are", "statement": "The waveforms with one mode have, for all arguments for which that mode is one of theirs, exactly exp(i omega t) or beta t times one spin-weighted harmonic, at times t_0, t_0 + dt, ... up to the first not before t_1, and a data type of the given spin weight.  single_mode_proportional_to_time_supertranslated returns exactly the modes of beta (t + alpha) times that harmonic, where alpha is the supertranslation as a function on the sphere; a space_translation gives alpha = -x.n.  constant_waveform has the value m - i m in each mode.  create_fake_finite_radius_strain_h5file is documented to give h0 + h1/r + ... at each radius.", "quantifier": "all spin weights, modes, ranges of ell, times, factors, all lists of modes of the supertranslation, all vectors, all lists of radii", "why_tests_cant": "The modes are sums with 3-j symbols that must equal integrals over the sphere for every supertranslation and every range of ell.", "anchors": ["scri/sample_waveforms.py:single_mode_constant_rotation", "scri/sample_waveforms.py:single_mode_proportional_to_time", "scri/sample_waveforms.py:single_mode_proportional_to_time_supertranslated", "scri/sample_waveforms.py:constant_waveform", "scri/sample_waveforms.py:single_mode", "scri/sample_waveforms.py:modes_constructor", "scri/sample_waveforms.py:create_fake_finite_radius_strain_h5file"]}
{"id": "C79", "title": "The supertranslation to the superrest frame removes the supermomentum", "statement": "The search for the supertranslation to the superrest frame uses the Moreschi supermomentum Psi of the data.  The mass it computes is the rest mass of the four-momentum of Psi, and the conformal factor is that of the boost to rest, M / (E - p.n).  For a real supermomentum at rest that does not depend on time, the search finds after one pass the supertranslation alpha with modes 4 Psi_lm / ((l+2)(l+1)l(l-1)) for l >= 2 and none for l < 2, with no rotation and no boost; the supermomentum in that frame has no modes with l >= 2, the error is 0, and the search stops.  With the supermomentum of a target, that of the target takes the place of 0.", "quantifier": "all supermomenta (all modes up to any ell_max), all targets, all numbers of iterations and tolerances, all directions on the sphere", "why_tests_cant": "That the fixed point is reached in one pass, and that it is the frame in which the supermomentum vanishes, is a statement on all modes of all functions; the sign of a component of the conformal factor shows only for moving data.", "anchors": ["scri/asymptotic_bondi_data/map_to_superrest_frame.py:compute_bondi_rest_mass_and_conformal_factor", "scri/asymptotic_bondi_data/map_to_superrest_frame.py:compute_Moreschi_supermomentum", "scri/asymptotic_bondi_data/map_to_superrest_frame.py:compute_alpha_perturbation", "scri/asymptotic_bondi_data/map_to_superrest_frame.py:supertranslation_to_map_to_superrest_frame"]}
{"id": "C80", "title": "Mapping data to the frame of other data returns the best transformation, and the exact one if its parts are exact", "statement": "map_to_abd_frame makes all passes it is allowed and returns the first of the transformations with the smallest error, that error, and the data transformed with it.  If the superrest frames of the data and the target agree up to a time translation and a rotation about z, and the alignment finds these, then after any positive number of passes the transformation maps the data to the target and the error is 0.  It starts at the time at which the energy is nearest to that of the target at t_0.  The error between two data is not negative, and 0 exactly for equal data.", "quantifier": "all data and targets, all transformations and group actions, all numbers of passes, all alignment results, all series of modes at all increasing times", "why_tests_cant": "That the composition of the four transformations and inverses is in the right order for every group and every number of passes, and that no better iterate is lost, are statements about all runs.", "anchors": ["scri/asymptotic_bondi_data/map_to_abd_frame.py:map_to_abd_frame", "scri/asymptotic_bondi_data/map_to_abd_frame.py:rel_err_between_abds"]}
{"id": "C81", "title": "The charges of rotated and time-translated data are those of the original data in the new frame", "statement": "For the data that transform returns for a time translation and a rotation, at every time: the Bondi energy and rest mass are unchanged; the momentum, the angular momentum, the centre-of-mass charge and the dimensionless spin have the components of the same vectors in the rotated frame; the boost charge is that of the original data plus the time translation times the momentum, in the rotated frame; and the supermomentum, in each of its four definitions and integrated or not, has the modes of the same function with respect to the rotated basis.", "quantifier": "all data with two or more increasing times and ell_max >= 1, all rotors of the frame_rotation argument, all time translations, all times", "why_tests_cant": "Tests rotate a few simulations; the covariance is an identity between products of all modes and the Wigner matrices of all degrees.", "anchors": ["scri/asymptotic_bondi_data/bms_charges.py:bondi_four_momentum", "scri/asymptotic_bondi_data/bms_charges.py:bondi_angular_momentum", "scri/asymptotic_bondi_data/bms_charges.py:bondi_boost_charge", "scri/asymptotic_bondi_data/bms_charges.py:bondi_CoM_charge", "scri/asymptotic_bondi_data/bms_charges.py:bondi_dimensionless_spin", "scri/asymptotic_bondi_data/bms_charges.py:supermomentum", "scri/asymptotic_bondi_data/transformations.py:transform"]}
{"id": "C82", "title": "Finite-radius data are read at their retarded times and made dimensionless", "statement": "Reading one waveform of a finite-radius file for the extrapolation returns exactly the samples that are more than 0.001 before every later one; their times are the integral of the rate of static Schwarzschild clocks minus the tortoise coordinate, in units of the mass, and are the coordinate time minus the tortoise coordinate for static observers; the times increase if the lapse is positive and the sphere does not grow; the modes and the areal radius become the dimensionless quantities (R/M)^r M^m psi and R/M, with the powers of the type of the data; and the result is the same in all units of length.", "quantifier": "all waveforms and auxiliary data whose first sample is more than 0.001 before all others, all masses, all seven data types", "why_tests_cant": "A file has one set of times, radii and masses; the relation between the three powers and the dimension of the field has to hold for all values.", "anchors": ["scri/extrapolation.py:read_finite_radius_waveform", "scri/extrapolation.py:read_finite_radius_waveform_nrar", "scri/extrapolation.py:read_finite_radius_waveform_rpxmb_or_rpdmb"]}
{"id": "C83", "title": "The finite-radius data that are asked for are used, in the frame of the outermost, at common times", "statement": "read_finite_radius_data reads the waveforms whose radii are asked for (all, if none are), extrapolate takes the frame of the one with the largest radius, and set_common_time takes all to increasing times that are within the limits and within the times of every waveform and begin at the latest first time, without changing the radii at times that remain; files of the known formats are read; waveforms pass the validation only if they have the same numbers of times and modes; the mass that is picked is that at which most values are.", "quantifier": "all lists of names and radii, all patterns, all times, all limits, all series of masses", "why_tests_cant": "The order of the radii, overlapping patterns and the lengths of the series vary between files.", "anchors": ["scri/extrapolation.py:read_finite_radius_data", "scri/extrapolation.py:set_common_time", "scri/extrapolation.py:pick_Ch_mass", "scri/extrapolation.py:validate_group_of_waveforms", "scri/extrapolation.py:validate_single_waveform", "scri/extrapolation.py:extrapolate", "scri/extrapolation.py:read_finite_radius_waveform_rpxmb_or_rpdmb"]}
{"id": "C84", "title": "The measures of parity violation are squared distances, between 0 and 1 when normalised", "statement": "x/y/z/parity_violation_squared is the squared norm of half the difference between the waveform and its reflection, and adds up with the squared norm of the symmetric part to that of the waveform; the normalised violation is between 0 and 1, 0 exactly for waveforms that the reflection leaves as they are, 1 exactly for those whose sign it changes, and nan exactly for 0; the violation of inversion does not depend on the orientation of the frame, and that of the reflection along z does not change in rotations about z.", "quantifier": "all modes, spin weights, ranges of degrees, rotations", "why_tests_cant": "Invariance under every rotation and the bounds for every waveform cannot be sampled.", "anchors": ["scri/waveform_modes.py:x_parity_violation_squared", "scri/waveform_modes.py:x_parity_violation_normalized", "scri/waveform_modes.py:y_parity_violation_squared", "scri/waveform_modes.py:z_parity_violation_squared", "scri/waveform_modes.py:parity_violation_squared", "scri/waveform_modes.py:parity_violation_normalized"]}
{"id": "C85", "title": "A waveform taken to the sxs class and back is the same waveform", "statement": "WaveformModes.from_sxs(w.to_sxs) has the times, modes, data type, frame type, flags, range of degrees and versions of w, the same rotor at every time, and the history of w followed by new lines; the attributes that extrapolation and transformations attach come back; w is left as it is; frames of a wrong number of rotors raise a ValueError in both directions; names of types are recognised in upper and lower case and unknown names give the unknown type.", "quantifier": "all consistent waveforms, with no frame, one rotor or one per time", "why_tests_cant": "Eleven data types, five frame types, three kinds of frame and the identity as a special value combine; the loss of an attribute is seen only when it is set.", "anchors": ["scri/waveform_modes.py:from_sxs", "scri/waveform_modes.py:to_sxs", "scri/waveform_base.py:__init__"]}
{"id": "C86", "title": "The merger_zoom scale of plots is invertible, monotonic and stretches the merger only", "statement": "On an axis with the merger_zoom scale every time has its own place, later times are further along, the scale has no jumps, lengths before the merger and after the ringdown begins are times and between them are merger_stretch times as long, the inverse gives the time at every place, the limits of the axis stay within the data, and with the default stretch the merger takes more than three sevenths of the axis.", "quantifier": "all times and places on the axis, all scales with merger before ringdown and positive stretch", "why_tests_cant": "Consistency of two piecewise functions at and between their boundaries for all parameters.", "anchors": ["scri/plotting.py:WaveformTimeScale"]}
{"id": "C87", "title": "remove_avg_com_motion reads the right files and does not overwrite the data", "statement": "remove_avg_com_motion returns the waveform transformed with the estimated position and velocity, which are attached to it together with the version history and radii of the input; for psi0 to psi3 it reads the files of exactly the higher Weyl scalars next to the data; the corrected data are written, complete, to the file of the data with _CoM before its ending, in either format, and never to the file of the data; masses that are not given are taken from the metadata if there is a Matter.h5 file.", "quantifier": "all paths, data types, formats and files", "why_tests_cant": "Substring replacement in a path depends on every directory and name in it.", "anchors": ["scri/SpEC/com_motion.py:remove_avg_com_motion"]}
{"id": "C88", "title": "Reading LVC files", "statement": "LVC.read_from_h5 returns the times of the file and, for every mode between the least and the largest degree that the file lists, the column A(t) exp(i phi(t)) at the index of the mode, with the curves through the stored amplitude and phase; nothing of the uninitialised array is left; if amplitude and unwrapped phase are stored at the times of the file, the original complex data come back exactly; the text of the history is kept line by line as comments; a file in which any mode of the range is missing is refused.", "quantifier": "all files: lists of names, curves, histories and all interpolating splines", "why_tests_cant": "A test file has one set of modes; the property is about every set, including those with gaps, and about every text.", "anchors": ["scri/LVC/file_io.py:read_from_h5"]}
{"id": "C89", "title": "Norm and inner product are those of functions on the sphere, and independent of the frame", "statement": "The norm of a waveform (without square root) at each time is the integral of its squared magnitude over the sphere; inner_product is the time integral of the integral of conj(a) b over the sphere; rotate_decomposition_basis with one rotor or one at each time, and to_inertial_frame, change neither the norms nor max_norm_index and max_norm_time; rotating both waveforms in the same way does not change the inner product; and the inner product obeys the Cauchy-Schwarz inequality for quadratures with non-negative weights.", "quantifier": "all waveforms, degrees, spin weights, unit rotors at each time, slices and skipped fractions", "why_tests_cant": "Orthonormality of the harmonics and unitarity of the rotations hold for all degrees; a test has a few.", "anchors": ["scri/waveform_base.py:norm", "scri/waveform_base.py:max_norm_time", "scri/waveform_modes.py:inner_product", "scri/rotations.py:rotate_decomposition_basis"]}
{"id": "C90", "title": "Finding extrapolations to run, and filling in their script", "statement": "FindPossibleExtrapolationsToRun returns exactly the pairs of a Lev directory (relative to the given top directory) with metadata and one of the six data files that is in it, each once; _safe_format replaces exactly the given names in braces by their values and leaves all else, so that the remaining names can be replaced by a later call with the same result as one call.", "quantifier": "all directory trees, top directories, templates and values", "why_tests_cant": "Replacement of substrings depends on every name in the path and every character of the template.", "anchors": ["scri/extrapolation.py:FindPossibleExtrapolationsToRun", "scri/extrapolation.py:_safe_format"]}
{"id": "C91", "title": "Boosts and supertranslations take Bondi data to Bondi data", "statement": "If the six fields of asymptotic Bondi data satisfy the Bianchi identities, psi3 = -eth sigmabar_dot, psi4 = -sigmabar_ddot and the reality of the mass aspect, at all times and in all directions, then so do the fields that transform gives for a boost and a supertranslation, as functions of the new time and the new direction; and the mass aspect M becomes (M - eth^2 ethbar^2 alpha)/k^3.", "quantifier": "all smooth fields, boost velocities below 1, real supertranslations with any number of modes, times and directions", "why_tests_cant": "The identities relate derivatives with respect to the time and the directions of both frames, so that no finite sample of values can show them; bondi_violations is only evaluated for given data.", "anchors": ["scri/asymptotic_bondi_data/transformations.py:AsymptoticBondiData.transform", "scri/asymptotic_bondi_data/constraints.py:bondi_constraints"]}
{"id": "C92", "title": "The four-momentum is a four-vector under boosts and does not change under supertranslations", "statement": "For data without news the Bondi four-momentum (charge_vector_from_aspect of the mass aspect) does not depend on the time, and the transformed data have the same four-vector in the components of the moving frame, P'^t = gamma (P^t - beta P^z), P'^z = gamma (P^z - beta P^t), so that the rest mass is unchanged, whatever the supertranslation; for data with news the momentum of the Moreschi mass aspect at a new time is that of the old frame on the cut u = u'/k + alpha, in the components of the moving frame.", "quantifier": "all smooth Bondi data, boost velocities below 1, real supertranslations with any number of modes, times", "why_tests_cant": "An integral over the sphere of a function that is not band-limited in the new frame, for all data and all boosts; a numerical test only sees a truncation.", "anchors": ["scri/asymptotic_bondi_data/transformations.py:AsymptoticBondiData.transform", "scri/asymptotic_bondi_data/bms_charges.py:bondi_four_momentum", "scri/asymptotic_bondi_data/bms_charges.py:bondi_rest_mass", "scri/asymptotic_bondi_data/bms_charges.py:charge_vector_from_aspect"]}
{"id": "C93", "title": "fake_precessing_waveform is a precessing binary with a ringdown", "statement": "For all arguments, fake_precessing_waveform raises ValueError if the merger (100 before t_1) is less than 20 steps after t_0 and otherwise returns a strain with the times t_0, t_0+dt, ..., one unit frame per time and modes whose frequency rises by leading-order PN to the constant 0.25, whose (l,m) and (l,-m) parts differ from the reflection symmetry by an antisymmetric modulation that is gone after merger, and which decay exponentially after merger; the direction of the orbit goes around a cone of opening angle that grows, at the given fraction of the orbital rate, nutates before merger and settles to a constant direction after it; the result does not depend on which mass is called the larger one.", "quantifier": "all times, steps, mass ratios, angles, rates and numbers of modes", "why_tests_cant": "The waveform depends on ten real arguments and on comparisons of times with the grid; samples do not show what holds between them.", "anchors": ["scri/sample_waveforms.py:fake_precessing_waveform", "scri/sample_waveforms.py:pn_leading_order_amplitude", "scri/utilities.py:transition_function", "scri/utilities.py:transition_to_constant"]}
{"id": "C94", "title": "boost charge and angular momentum are one tensor in boosted frames", "statement": "For all asymptotic Bondi data (strain, psi1, psi2, ...) and every velocity beta < 1 along the polar axis, the boost charge N and the angular momentum J computed from abd.transform(boost_velocity) are the components of one antisymmetric tensor: N' = (gamma(Nx + beta Jy), gamma(Ny - beta Jx), Nz) and J' = (gamma(Jx - beta Ny), gamma(Jy + beta Nx), Jz), on the cut u = 0 that both frames share and, without news, at all times; so the magnitude of the dimensionless spin does not depend on the frame.", "quantifier": "all data, velocities below that of light, band limits, times", "why_tests_cant": "The two frames disagree about every point of every cut, and the statement is about integrals over the sphere of products of the data for all velocities.", "anchors": ["scri/asymptotic_bondi_data/transformations.py:transform", "scri/asymptotic_bondi_data/bms_charges.py:bondi_boost_charge", "scri/asymptotic_bondi_data/bms_charges.py:bondi_angular_momentum", "scri/asymptotic_bondi_data/bms_charges.py:bondi_dimensionless_spin"]}
{"id": "C95", "title": "the scripts for the catalog treat every simulation", "statement": "find_com_in_catalog writes a table with the ten named columns and one row for each Horizons.h5 below Catalog and Incoming, with the directory, the level, the optimal position and velocity, the initial time of the fit and the final time; files that cannot be used do not disturb others.  remove_avg_com_from_catalog writes the corrected waveform for every waveform that does not have one, and does not repeat work that is done.", "quantifier": "all directory trees, contents of files and failures", "why_tests_cant": "The scripts run over directory trees of any size and catch every exception, so that a run without an error message does not show that anything was done.", "anchors": ["scri/SpEC/find_com_in_catalog.py:run_in", "scri/SpEC/remove_avg_com_from_catalog.py:run_in", "scri/SpEC/com_motion.py:remove_avg_com_motion", "scri/SpEC/com_motion.py:estimate_avg_com_motion"]}
{"id": "C96", "title": "the center-of-mass frame: charges of translated data, and convergence of the solver", "statement": "A translation in time and space changes the boost charge to N + a E + tau P and the angular momentum to J + a x P, and with a boost the charges transform under the Poincare group. For data without news the solver for the center-of-mass transformation finds the frame in which the momentum is zero and the center of mass is at rest at the origin; the errors it reports are the distances of the center of mass from the origin in each pass.", "quantifier": "all Bondi data without news with a timelike momentum along the polar axis, all times, translations, tolerances and maximal numbers of passes", "why_tests_cant": "The solver iterates on transformed data; tests run it on a few waveforms and look at the size of the last error, which does not show that the frame is the right one nor that the iteration ends for other data.", "anchors": ["scri/asymptotic_bondi_data/map_to_superrest_frame.py:com_transformation_to_map_to_superrest_frame", "scri/asymptotic_bondi_data/map_to_superrest_frame.py:transformation_from_CoM_charge", "scri/asymptotic_bondi_data/bms_charges.py:bondi_CoM_charge", "scri/asymptotic_bondi_data/transformations.py:transform"]}
{"id": "C97", "title": "a rotation and time translation followed by any transformation is one transformation", "statement": "Rotating Bondi data and shifting their time, and then applying any BMS transformation, gives exactly the same times and modes as one transformation of the original data: its rotation is the product, its boost velocity is the second one expressed in the original frame, its supertranslation is the second one expressed in the original frame plus the time shift. Every transformation can be divided like this for every rotation and time shift, and every second transformation can be absorbed. In particular a boost in any direction is a rotation of the axes, a boost along the z axis and the rotation back.", "quantifier": "all data, rotors, time translations, velocities below 1, supertranslations, working and output ell_max, all interpolations through the points and all inverses that are exact for band-limited functions", "why_tests_cant": "Tests transform a few data sets back and forth and compare with a tolerance, which hides small errors of order of the interpolation error; they cannot show that the two ways agree for all boosts and supertranslations.", "anchors": ["scri/asymptotic_bondi_data/transformations.py:transform", "scri/asymptotic_bondi_data/transformations.py:boosted_grid", "scri/asymptotic_bondi_data/transformations.py:conformal_factors", "scri/asymptotic_bondi_data/transformations.py:_process_transformation_kwargs"]}
{"id": "C98", "title": "Random sample waveforms", "statement": "random_waveform gives a waveform with n_times sorted times between begin and end (or equally spaced ones), independent random complex weights for all modes from 2 to 8 and, if rotating, a corotating frame of one random unit rotor per time; random_waveform_proportional_to_time gives weights that are the time times a number, in a frame of four turns about a fixed axis. The results are reproducible, the other keywords are passed to modes_constructor, and the recorded statement reproduces the waveform.", "quantifier": "all keyword arguments, all streams of random numbers, all states of the generator before the call, all hash functions of the interpreter", "why_tests_cant": "Tests use one run of one interpreter, and so one hash seed; the ordering, the range, the unit norm of the rotors and the proportionality have to hold for all streams of random numbers.", "anchors": ["scri/sample_waveforms.py:random_waveform", "scri/sample_waveforms.py:random_waveform_proportional_to_time", "scri/sample_waveforms.py:modes_constructor"]}
{"id": "C99", "title": "Norms of the violations of Bondi gauge", "statement": "bondi_violation_norms gives six numbers at each time. Each is not negative, its square is the integral over the sphere of the squared magnitude of the left-hand side minus the right-hand side of one equation of Bondi gauge, and it is zero only if the equation holds in all directions. With another multiplication_truncator only the part of the violation with ell up to the truncation counts. The norms are the same in a rotated or time-translated frame, and so after transform with such a transformation.", "quantifier": "all data with modes up to any ell_max, all six equations, all products that are exact, all truncators between ell_max and 2 ell_max, all unit rotors and time translations", "why_tests_cant": "Tests look at a few waveforms for which the equations hold up to rounding errors; what the norms say has to hold for all data, in particular that no violation is missed.", "anchors": ["scri/asymptotic_bondi_data/constraints.py:bondi_violation_norms", "scri/asymptotic_bondi_data/constraints.py:bondi_violations", "scri/asymptotic_bondi_data/constraints.py:bianchi_0", "scri/asymptotic_bondi_data/constraints.py:constraint_mass_aspect", "scri/asymptotic_bondi_data/transformations.py:transform", "scri/asymptotic_bondi_data/from_initial_values.py:from_initial_values"]}
{"id": "C100", "title": "Interpolation, derivatives and integrals of waveforms", "statement": "data_dot, data_ddot, data_int and data_iint are the derivatives and the integrals from the first time of one smooth curve through the data for each mode, and interpolate gives the values of the same curve at the new times; if the data are those of a cubic, all are exact. interpolate to the times of the waveform gives the waveform itself, and a frame that turns uniformly about an axis is interpolated exactly; spin, modes and weights are kept. energy_flux of a strain, which takes data_dot, is the energy flux of the field, whatever the frame of the waveform.", "quantifier": "all waveforms with two or more increasing times, all new times, all polynomials up to the third degree, all axes, all angular velocities with less than a quarter turn of the rotor per step, all frames", "why_tests_cant": "Tests compare a few analytic functions at a few times up to a tolerance; the exactness and the agreement of the five functions has to hold for all data and times.", "anchors": ["scri/waveform_base.py:WaveformBase.interpolate", "scri/waveform_base.py:WaveformBase.data_dot", "scri/waveform_base.py:WaveformBase.data_ddot", "scri/waveform_base.py:WaveformBase.data_int", "scri/waveform_base.py:WaveformBase.data_iint", "scri/flux.py:energy_flux"]}
{"id": "C101", "title": "Rotation to the frame of a target strain", "statement": "rotation_to_map_to_superrest_frame with a target strain returns a pure rotation after which the direction of the angular velocity of the news is that of the target at all times, whenever a constant rotation can do that; it finds it in one pass with error 0. Data that are the target seen from turned axes are turned back, and data with their own strain as the target are not turned over.", "quantifier": "all waveforms with three derivatives, all unit rotors between data and target, all angular velocities that are not zero, all numbers of passes and tolerances that are positive", "why_tests_cant": "Tests try one waveform and one rotation; that every rotation is found, and that the angular velocities of the same quantity are compared, is a statement about all data.", "anchors": ["scri/asymptotic_bondi_data/map_to_superrest_frame.py:rotation_to_map_to_superrest_frame", "scri/asymptotic_bondi_data/map_to_superrest_frame.py:rotation_from_vectors", "scri/mode_calculations.py:angular_velocity"]}
{"id": "C102", "title": "Amplitude and phase of modes", "statement": "Each item of the data of a waveform is the product of abs and of the phase factor exp(i phase), where the phase is that of arg or that of arg_unwrapped. arg lies between -pi and pi; arg_unwrapped begins with arg and moves by at most half a turn from one time to the next. If the data of a mode have an amplitude that does not vanish and a phase that moves by less than half a turn between neighbouring times, arg_unwrapped is this phase for all times, up to one number of full turns.", "quantifier": "all waveforms, all modes, all numbers of times, all amplitudes and phases", "why_tests_cant": "Tests follow a few smooth phases for a few turns; that no turn is ever gained or lost has to hold for series of all lengths and all phases.", "anchors": ["scri/waveform_base.py:WaveformBase.abs", "scri/waveform_base.py:WaveformBase.arg", "scri/waveform_base.py:WaveformBase.arg_unwrapped"]}
{"id": "C103", "title": "What the errors of the superrest frame measure", "statement": "The errors that map_to_superrest_frame minimizes and compares with the tolerances (center of mass, rotation, supertranslation) are numbers that are not negative, and each is zero exactly if its part of the frame is reached: the center-of-mass charge vanishes at all times; the dimensionless spin points to the positive z axis at all times, or, with a target strain, the angular velocity of the news has at all times the direction of that of the target; the Moreschi supermomentum at the time nearest to 0 has no modes with ell >= 2, or those of the target.", "quantifier": "all data with two or more times and, at each, an energy larger than the momentum; all targets for the supermomentum; all target strains that determine their angular velocity, or none", "why_tests_cant": "Tests look at the errors of a few samples; that an error vanishes for no frame but the wanted one, and that it is a number at all, is a statement about all data.", "anchors": ["scri/asymptotic_bondi_data/map_to_superrest_frame.py:rel_err_for_abd_in_superrest", "scri/asymptotic_bondi_data/map_to_superrest_frame.py:map_to_superrest_frame", "scri/asymptotic_bondi_data/bms_charges.py:bondi_dimensionless_spin", "scri/asymptotic_bondi_data/bms_charges.py:bondi_CoM_charge", "scri/asymptotic_bondi_data/bms_charges.py:supermomentum"]}
{"id": "C104", "title": "Data in the superrest frame are left as they are, and zero errors mean that it is reached", "statement": "If the data near t_0 are those of a stationary object that is in the superrest frame (center of mass at the origin, spin along z, no supermomentum with ell >= 2), map_to_superrest_frame returns the data unchanged, the identity transformation and zero errors, for every order of the three solvers, every tolerance and every positive number of iterations; the time translation by t_0 with which it starts is undone.  Conversely, the errors it returns are those of the data near t_0 in the frame that it has found, and if all three are zero, the data are in the superrest frame there.", "quantifier": "all data, times t_0 and windows; all orders of the three solvers; all positive tolerances and numbers of iterations; no targets", "why_tests_cant": "Tests map a few numerical waveforms and look at the size of the errors; that the map has the superrest frame as fixed points, and no others, is a statement about all data and about the three iterative solvers together.", "anchors": ["scri/asymptotic_bondi_data/map_to_superrest_frame.py:map_to_superrest_frame", "scri/asymptotic_bondi_data/map_to_superrest_frame.py:com_transformation_to_map_to_superrest_frame", "scri/asymptotic_bondi_data/map_to_superrest_frame.py:rotation_to_map_to_superrest_frame", "scri/asymptotic_bondi_data/map_to_superrest_frame.py:supertranslation_to_map_to_superrest_frame", "scri/asymptotic_bondi_data/map_to_superrest_frame.py:rel_err_for_abd_in_superrest"]}
{"id": "C105", "title": "A tilted spin is turned to the z axis", "statement": "For a stationary object at rest at the origin whose spin has any constant direction, map_to_superrest_frame finds a rotation of the frame, and no other change, after which the spin is along the z axis: along the positive or the negative one, depending on which it is closest to (so the documentation of the rotation solver). The errors are zero, for every order of the three solvers that includes the rotation, and the result does not depend on the direction, the tolerances and the numbers of iterations.", "quantifier": "all stationary data at rest at the origin, all directions of the spin, all times t_0 and windows, all orders of the three solvers that include the rotation, all positive tolerances and numbers of iterations; no targets", "why_tests_cant": "Tests align the spins of a few remnants; that the solver reaches the wanted frame from every direction, also from the exceptional ones, is a statement about the whole sphere of directions.", "anchors": ["scri/asymptotic_bondi_data/map_to_superrest_frame.py:map_to_superrest_frame", "scri/asymptotic_bondi_data/map_to_superrest_frame.py:rotation_to_map_to_superrest_frame", "scri/asymptotic_bondi_data/map_to_superrest_frame.py:rotation_from_spin_charge"]}
{"id": "C106", "title": "An object that is not at the origin is brought there", "statement": "For an object at rest anywhere, without radiation, whose spin has any constant direction except -z (see C105), map_to_superrest_frame finds the translation that brings the center of mass to the origin together with a rotation that takes the z axis to the spin, and nothing else, in one pass; the errors are zero. The result is the same for every order of the solvers that includes the rotation and the center of mass.", "quantifier": "all data without radiation with a supermomentum of a mass at rest, all places other than the origin for which the window is long enough (light travel time at both ends), all directions of the spin but -z, all times t_0, all orders of the three solvers that include the rotation and the center of mass, all positive tolerances and numbers of iterations; no targets", "why_tests_cant": "Tests map a few remnants and compare with tolerances; that the solvers do not spoil each other's results, whatever their order, and that one pass is enough from every place and direction, is a statement about all of them.", "anchors": ["scri/asymptotic_bondi_data/map_to_superrest_frame.py:map_to_superrest_frame", "scri/asymptotic_bondi_data/map_to_superrest_frame.py:com_transformation_to_map_to_superrest_frame", "scri/asymptotic_bondi_data/map_to_superrest_frame.py:transformation_from_CoM_charge", "scri/asymptotic_bondi_data/map_to_superrest_frame.py:rotation_to_map_to_superrest_frame"]}
{"id": "C107", "title": "An object seen from a supertranslated frame is taken to the superrest frame", "statement": "For an object at rest anywhere, without radiation, with a spin in any constant direction except -z (see C105), seen from a frame that is supertranslated by any real function with modes ell >= 2, map_to_superrest_frame with the supertranslation solver first (as in the default order) finds in one pass exactly the opposite supertranslation, the translation that brings the center of mass to the origin, and a rotation that takes the z axis to the spin; the errors are zero. The solvers that follow may come in any order and any number of times, as long as the rotation and the center of mass are among them.", "quantifier": "all supertranslations by bounded real functions with modes 2 <= ell <= ell_max, all data without radiation that in some supertranslated frame have the supermomentum of a mass at rest, all places including the origin for which the window is long enough, all directions of the spin but -z, all times t_0, all orders that begin with the supertranslation and include the rotation and the center of mass, all positive tolerances and numbers of iterations; no targets", "why_tests_cant": "Tests map a few remnants and look at small residuals; that the supertranslation found is exactly the one of the frame, whatever its modes, and that the later solvers do not spoil it, is a statement about all supertranslations and orders.", "anchors": ["scri/asymptotic_bondi_data/map_to_superrest_frame.py:map_to_superrest_frame", "scri/asymptotic_bondi_data/map_to_superrest_frame.py:supertranslation_to_map_to_superrest_frame", "scri/asymptotic_bondi_data/map_to_superrest_frame.py:compute_Moreschi_supermomentum", "scri/asymptotic_bondi_data/map_to_superrest_frame.py:com_transformation_to_map_to_superrest_frame", "scri/asymptotic_bondi_data/map_to_superrest_frame.py:rotation_to_map_to_superrest_frame"]}
{"id": "C108", "title": "A keyword argument is used or reported", "statement": "Every keyword argument that is passed to a constructor of a waveform, to from_modes and transform of waveforms, to the functions that read files and to the functions that make sample waveforms, is either used or listed in a warning, and the warning lists nothing else; the documented names are used. (The same is expected of AsymptoticBondiData.transform, BMSTransformation and LorentzTransformation, where it fails.)", "quantifier": "all sets of keyword arguments with any names and values, with and without an object that is copied, all types of data", "why_tests_cant": "There are infinitely many names; tests pass the right ones. Whether a misspelled name passes unnoticed is a statement about every other name.", "anchors": ["scri/waveform_base.py:WaveformBase.__init__", "scri/waveform_modes.py:WaveformModes.__init__", "scri/waveform_modes.py:WaveformModes.transform", "scri/waveform_grid.py:WaveformGrid.__init__", "scri/waveform_grid.py:WaveformGrid.from_modes", "scri/waveform_grid.py:process_transformation_kwargs", "scri/SpEC/file_io/__init__.py:read_from_h5", "scri/sample_waveforms.py", "scri/asymptotic_bondi_data/transformations.py:transform", "scri/bms_transformations.py:BMSTransformation"]}
{"id": "C109", "title": "A copy of a waveform is the same waveform", "statement": "Passing a consistent waveform to the constructor of its class gives a consistent waveform with the same times, frame, data, types and flags, whose history begins with the history of the original; with WaveformModes it has the same modes. So does the method copy, for both classes. copy_without_data gives a consistent waveform without data of the same types. (Both fail for WaveformGrid: the constructor raises an exception for every grid with points, and the copy without data still claims the points.)", "quantifier": "all consistent waveforms with any number of times and modes or points, with and without override_exception_from_invalidity", "why_tests_cant": "The constructor of each class has to know every attribute; tests copy one waveform of one class. That no waveform can be copied, or that all can, is a statement about all of them.", "anchors": ["scri/waveform_base.py:WaveformBase.__init__", "scri/waveform_base.py:WaveformBase.copy_without_data", "scri/waveform_modes.py:WaveformModes.__init__", "scri/waveform_modes.py:WaveformModes.copy_without_data", "scri/waveform_grid.py:WaveformGrid.__init__", "scri/waveform_grid.py:WaveformGrid.ensure_validity"]}
{"id": "C110", "title": "Waveforms go through RPXMB files", "statement": "scri.rpxmb.save and load add nothing to and take nothing from what the package sxs stores: for a consistent waveform that sxs stores with other data and another frame (corotating, rounded), load returns a consistent waveform with these data, frame and type of frame and with the times, modes, types, flags and versions of the one that was saved; the logarithm of the frame is attached, and returned as a second value exactly if the data are not transformed to the inertial frame. By default a file that fails its validation raises an exception, and a waveform with a wrong number of rotors is not written.", "quantifier": "all consistent waveforms, all versions of them that sxs might store, all arguments and all behaviours of sxs.rpxmb.save and load that store such a version", "why_tests_cant": "Tests save one waveform with one set of arguments and compare with tolerances; that nothing is lost between the two classes is a statement about all waveforms and all arguments.", "anchors": ["scri/SpEC/file_io/rotating_paired_xor_multishuffle_bzip2.py:save", "scri/SpEC/file_io/rotating_paired_xor_multishuffle_bzip2.py:load", "scri/waveform_modes.py:WaveformModes.from_sxs", "scri/waveform_modes.py:WaveformModes.to_sxs"]}
