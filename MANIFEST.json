{
 "claims": [
  {
   "property": "C01",
   "status": "proved",
   "theorems": [
    "Euphonic.C01_split_spectrum1d",
    "Euphonic.C01_split_collection1d",
    "Euphonic.C01_split_spectrum2d",
    "Euphonic.C01_split_collection2d"
   ],
   "note": "all four classes; break points non-decreasing and in range"
  },
  {
   "property": "C02",
   "status": "proved",
   "theorems": [
    "Euphonic.C02_split_ticks",
    "Euphonic.C02_split_ticks_in_range"
   ],
   "note": "labels at non-negative positions; order kept if the labels were ordered"
  },
  {
   "property": "C03",
   "status": "proved",
   "theorems": [
    "Euphonic.C03_split_by_tol_breaks",
    "Euphonic.C03_no_gap_inside_piece",
    "Euphonic.C03_short_axis"
   ],
   "note": "non-decreasing axis over an ordered field (no rounding)"
  },
  {
   "property": "C04",
   "status": "proved",
   "theorems": [
    "Euphonic.C04_split_arguments",
    "Euphonic.C04_split_single_argument_accepted"
   ],
   "note": ""
  },
  {
   "property": "C05",
   "status": "proved",
   "theorems": [
    "Euphonic.C05_ticks_accepted_iff",
    "Euphonic.C05_ticks_refused_iff",
    "Euphonic.C05_assignment_atomic",
    "Euphonic.C05_reassign"
   ],
   "note": "tick label setter: accepted iff every element is an (integer, string) pair; refused assignment leaves the object unchanged"
  },
  {
   "property": "C06",
   "status": "partial",
   "theorems": [
    "Euphonic.C06_edges_given_partial",
    "Euphonic.C06_centres_given_partial",
    "Euphonic.C06_collection2d_bin_edges_wrong"
   ],
   "note": "1-D spectra, 1-D collections and 2-D spectra; missing: strict increase for a single centre (edges coincide) and 2-D collections, for which the claim is false (C06_collection2d_bin_edges_wrong)"
  },
  {
   "property": "C07",
   "status": "partial",
   "theorems": [
    "Euphonic.C07_widths_partial",
    "Euphonic.C07_single_centre_zero_width"
   ],
   "note": "edge axes and centre axes with at least two points; a single centre has width zero (C07_single_centre_zero_width shows the full claim is false)"
  },
  {
   "property": "C08",
   "status": "proved",
   "theorems": [
    "Euphonic.C08_axis_length"
   ],
   "note": "axis length check of all classes"
  },
  {
   "property": "C09",
   "status": "proved",
   "theorems": [
    "Euphonic.C09_integer_index",
    "Euphonic.C09_iteration",
    "Euphonic.C09_list_index",
    "Euphonic.C09_full_slice_refused",
    "Euphonic.C09_slice"
   ],
   "note": "integers, lists and slices; slices whose stop equals the length are refused (finding C09_full_slice_refused); slices with a step are not modelled"
  },
  {
   "property": "C10",
   "status": "proved",
   "theorems": [
    "Euphonic.C10_from_spectra_list",
    "Euphonic.C10_list_from_spectra",
    "Euphonic.C10_from_spectra_refused"
   ],
   "note": "both directions and refusals"
  },
  {
   "property": "C11",
   "status": "proved",
   "theorems": [
    "Euphonic.C11_sum",
    "Euphonic.C11_sum_perm",
    "Euphonic.C11_sum_untidy_metadata"
   ],
   "note": "data for every collection; metadata for collections whose per-line keys are not common keys, with the counterexample for the others"
  },
  {
   "property": "C12",
   "status": "proved",
   "theorems": [
    "Euphonic.C12_group_by",
    "Euphonic.C12_group_by_total"
   ],
   "note": ""
  },
  {
   "property": "C13",
   "status": "proved",
   "theorems": [
    "Euphonic.C13_select",
    "Euphonic.C13_select_repeated_value"
   ],
   "note": "duplicates occur exactly when values are repeated (finding C13_select_repeated_value)"
  },
  {
   "property": "C14",
   "status": "proved",
   "theorems": [
    "Euphonic.C14_add",
    "Euphonic.C14_add_assoc"
   ],
   "note": ""
  },
  {
   "property": "C15",
   "status": "partial",
   "theorems": [
    "Euphonic.C15_scaling_partial",
    "Euphonic.C15_collection2d_scales_axis"
   ],
   "note": "Spectrum1D, Spectrum1DCollection, Spectrum2D; for Spectrum2DCollection the claim is false (C15_collection2d_scales_axis)"
  },
  {
   "property": "C16",
   "status": "partial",
   "theorems": [
    "Euphonic.C16_unit_changes_other_dims",
    "Euphonic.C16_unit_changes_partial",
    "Euphonic.C16_assign_read",
    "Euphonic.C16_reciprocal_unit_accepted_wrong",
    "Euphonic.C16_spectrum_unit_changes",
    "Euphonic.C16_spectrum_unit_refused",
    "Euphonic.C16_spectrum_assign_read",
    "Euphonic.C16_failed_assignment_changes_unit"
   ],
   "note": "full for dimensions other than energy/length; for energies and lengths only while units of the same dimension are assigned, because reciprocal units are accepted and read wrongly (C16_reciprocal_unit_accepted_wrong); non-atomic failed assignment (C16_failed_assignment_changes_unit)"
  },
  {
   "property": "C17",
   "status": "partial",
   "theorems": [
    "Euphonic.Py.C17_crystal",
    "Euphonic.Py.C17_debye_waller_partial",
    "Euphonic.Py.C17_celsius_fails",
    "Euphonic.Py.C17_qpoint_frequencies",
    "Euphonic.Py.C17_qpoint_phonon_modes",
    "Euphonic.Py.C17_structure_factor_partial",
    "Euphonic.Py.C17_force_constants_partial",
    "Euphonic.Py.C17_dielectric_without_born",
    "Euphonic.Py.C17_spectra"
   ],
   "note": "all classes; missing because false: temperatures held in offset units (C17_celsius_fails) and force constants with a dielectric tensor but no Born charges (C17_dielectric_without_born)"
  },
  {
   "property": "C18",
   "status": "partial",
   "theorems": [
    "Euphonic.Py.C18_json_roundtrip_partial",
    "Euphonic.Py.C18_empty_array_shape_lost",
    "Euphonic.Py.C18_undeclared_complex",
    "Euphonic.Py.C18_crystal_file",
    "Euphonic.Py.C18_empty_crystal_file",
    "Euphonic.Py.C18_modes_file",
    "Euphonic.Py.C18_spectrum1d_file"
   ],
   "note": "every storable dictionary, crystals, modes and 1-D spectra through files; missing because false: empty multi-dimensional arrays (C18_empty_array_shape_lost) and undeclared complex arrays"
  },
  {
   "property": "C19",
   "status": "proved",
   "theorems": [
    "Euphonic.C19_constructor_check"
   ],
   "note": "the whole of _check_constructor_inputs: accepted iff every value has an allowed type and matches an allowed shape"
  },
  {
   "property": "C20",
   "status": "proved",
   "theorems": [
    "Euphonic.Dos.C20_dos_area",
    "Euphonic.Dos.C20_dos_area_three"
   ],
   "note": "Area of the unbroadened DOS is the weighted number of modes in range (all widths positive); 3N special case."
  },
  {
   "property": "C21",
   "status": "proved",
   "theorems": [
    "Euphonic.Dos.C21_dos_counts_modes_in_bin",
    "Euphonic.Dos.C21_exactly_one_bin",
    "Euphonic.Dos.C21_unsorted_bins_refused"
   ],
   "note": "Half-open bins [e_i, e_{i+1}); each in-range frequency is counted in exactly one bin; unsorted bins refused."
  },
  {
   "property": "C22",
   "status": "proved",
   "theorems": [
    "Euphonic.Dos.C22_dos_weight_scale",
    "Euphonic.Dos.C22_dos_permutation",
    "Euphonic.Dos.C22_dos_mode_permutation",
    "Euphonic.Dos.C22_dos_default_weights",
    "Euphonic.Dos.C22_adaptive_weight_scale",
    "Euphonic.Dos.C22_adaptive_permutation"
   ],
   "note": "Scaling of weights, permutation of q-points and modes, default weights; the adaptive method as well, with the broadening function as a parameter."
  },
  {
   "property": "C23",
   "status": "proved",
   "theorems": [
    "Euphonic.Dos.C23_pdos_sums_to_dos",
    "Euphonic.Dos.C23_neutron_weighting"
   ],
   "note": "Sum over atoms of PDOS equals DOS for normalised eigenvectors; neutron weighting multiplies by the cross-section. Summing by species follows from C11/C12."
  },
  {
   "property": "C24",
   "status": "proved",
   "theorems": [
    "Euphonic.Dos.C24_sqw_bins",
    "Euphonic.Dos.C24_row_total",
    "Euphonic.Dos.C24_1d_average"
   ],
   "note": "Bin content and row totals of calculate_sqw_map, 1-D average; repeated bin edges excluded (they give 0/0)."
  },
  {
   "property": "C25",
   "status": "proved",
   "theorems": [
    "Euphonic.Dos.C25_detailed_balance",
    "Euphonic.Dos.C25_population_positive",
    "Euphonic.Dos.C25_zero_temperature"
   ],
   "note": "Detailed balance over the reals with exp; frequency 0 excluded."
  },
  {
   "property": "C26",
   "status": "proved",
   "theorems": [
    "Euphonic.Scatter.C26_debye_waller_temperature",
    "Euphonic.Dos.C26_temperature_choice",
    "Euphonic.Dos.C26_conflict_refused"
   ],
   "note": "Temperature selection and conflict errors for S(Q,w) and structure factors with Debye-Waller."
  },
  {
   "property": "C27",
   "status": "proved",
   "theorems": [
    "Euphonic.Scatter.C27_nonneg",
    "Euphonic.Scatter.C27_phase_invariant",
    "Euphonic.Scatter.C27_origin_invariant",
    "Euphonic.Scatter.C27_debye_waller_bound",
    "Euphonic.Scatter.C27_debye_waller_equal_exponents",
    "Euphonic.Scatter.C27_debye_waller_can_increase",
    "Euphonic.Scatter.C27_refusals",
    "Euphonic.Scatter.C27_calculated_exponents_nonneg"
   ],
   "note": "The bound without equal exponents is by squared sum of moduli; C27_debye_waller_can_increase shows that the naive bound is false."
  },
  {
   "property": "C28",
   "status": "partial",
   "theorems": [
    "Euphonic.Scatter.C28_chunking_irrelevant",
    "Euphonic.Scatter.C28_symmetric_psd_partial",
    "Euphonic.Scatter.C28_independent_of_chunk",
    "Euphonic.Scatter.C28_zero_frequency_nan"
   ],
   "note": "Symmetric positive semidefinite for frequencies that are not exactly zero and above the threshold; a zero frequency gives NaN (C28_zero_frequency_nan). Chunk size irrelevant."
  },
  {
   "property": "C29",
   "status": "partial",
   "theorems": [
    "Euphonic.Reorder.C29_permutation_partial",
    "Euphonic.Reorder.C29_reorder_partial",
    "Euphonic.Reorder.C29_branches_followed",
    "Euphonic.Reorder.C29_orthonormal_counterexample"
   ],
   "note": "Permutation when at every calculated step all overlaps are positive or they single out a correspondence (which is then followed). False in general even for orthonormal eigenvectors: C29_orthonormal_counterexample."
  },
  {
   "property": "C30",
   "status": "proved",
   "theorems": [
    "Euphonic.Lattice.C30_reciprocal_dual",
    "Euphonic.Lattice.C30_reciprocal_volume",
    "Euphonic.Lattice.C30_reciprocal_involutive",
    "Euphonic.Lattice.C30_volume_permutations"
   ],
   "note": "Any field; 2*pi is a parameter. Duality, volume, involution and permutations."
  },
  {
   "property": "C31",
   "status": "proved",
   "theorems": [
    "Euphonic.Lattice.C31_grid_complete",
    "Euphonic.Lattice.C31_in_zone",
    "Euphonic.Lattice.C31_inversion",
    "Euphonic.Lattice.C31_centred",
    "Euphonic.Lattice.C31_spacing"
   ],
   "note": "All grid sizes: complete, distinct, in the zone, closed under inversion, centred, equally spaced."
  },
  {
   "property": "C32",
   "status": "proved",
   "theorems": [
    "Euphonic.Lattice.C32_grid_spec",
    "Euphonic.Lattice.C32_unit_independent"
   ],
   "note": "Over the reals with exact ceil; non-degenerate cell and positive spacing."
  },
  {
   "property": "C33",
   "status": "proved",
   "theorems": [
    "Euphonic.Lattice.C33_species_idx",
    "Euphonic.Lattice.C33_partition"
   ],
   "note": "Keys in order of first appearance, increasing index lists, partition."
  },
  {
   "property": "C34",
   "status": "proved",
   "theorems": [
    "Euphonic.Lattice.C34_length_and_start",
    "Euphonic.Lattice.C34_increment",
    "Euphonic.Lattice.C34_monotone",
    "Euphonic.Lattice.C34_equivalent_points",
    "Euphonic.Lattice.C34_distance"
   ],
   "note": "Length (non-empty list), start, increments, monotonicity, equivalent points."
  },
  {
   "property": "C35",
   "status": "proved",
   "theorems": [
    "Euphonic.Lattice.C35_labelled_points",
    "Euphonic.Lattice.C35_parallel_steps_not_changed"
   ],
   "note": "Exactly the labelled indices, all lengths; seekpath's table is a parameter."
  },
  {
   "property": "C36",
   "status": "proved",
   "theorems": [
    "Euphonic.Lattice.C36_lattice_translation",
    "Euphonic.Lattice.C36_sound",
    "Euphonic.Lattice.C36_unrolled_first",
    "Euphonic.Lattice.C36_complete",
    "Euphonic.Lattice.C36_below_lattice_point_unlabelled"
   ],
   "note": "Translation invariance, soundness, completeness, precedence. Points slightly below a lattice vector are not recognised (C36_below_lattice_point_unlabelled)."
  },
  {
   "property": "C37",
   "status": "proved",
   "theorems": [
    "Euphonic.Lattice.C37_origins",
    "Euphonic.Lattice.C37_step_repeats_origins",
    "Euphonic.Lattice.C37_step_on_grid"
   ],
   "note": "Unit step. With step > 1 origins repeat (C37_step_repeats_origins)."
  },
  {
   "property": "C38",
   "status": "proved",
   "theorems": [
    "Euphonic.Lattice.C38_shell",
    "Euphonic.Lattice.C38_shell_inversion",
    "Euphonic.Lattice.C38_cube"
   ],
   "note": "Each shell is exactly the triples of that maximum norm; cubes are enumerated once."
  },
  {
   "property": "C39",
   "status": "proved",
   "theorems": [
    "Euphonic.Supercell.C39_sound",
    "Euphonic.Supercell.C39_succeeds_iff",
    "Euphonic.Supercell.C39_permutation",
    "Euphonic.Supercell.C39_chunk_independent"
   ],
   "note": "Exact arithmetic with threshold below 1/|det|: first equivalent cell, success iff closed, permutation, chunk size irrelevant."
  },
  {
   "property": "C40",
   "status": "partial",
   "theorems": [
    "Euphonic.Supercell.C40_blocks_kept",
    "Euphonic.Supercell.C40_pair_interactions_partial",
    "Euphonic.Supercell.C40_other_copy_misplaced"
   ],
   "note": "Blocks move without loss to congruent cells; relative to the row atom only when uc_to_sc_atom_idx lists first copies. Otherwise violated: C40_other_copy_misplaced."
  },
  {
   "property": "C41",
   "status": "proved",
   "theorems": [
    "Euphonic.Supercell.C41_counts_refused",
    "Euphonic.Supercell.C41_non_integer_refused",
    "Euphonic.Supercell.C41_nearest_integers"
   ],
   "note": "Refusals with their error classes; nearest integers otherwise."
  },
  {
   "property": "C42",
   "status": "proved",
   "theorems": [
    "Euphonic.Phases.C42_phases",
    "Euphonic.Phases.C42_image_sum",
    "Euphonic.Phases.C42_image_origins"
   ],
   "note": "Factored phases equal exp(2 pi i q.R) for all integer origins, also through the image origins; padding images contribute zero."
  },
  {
   "property": "C43",
   "status": "proved",
   "theorems": [
    "Euphonic.DynMat.C43_textbook",
    "Euphonic.DynMat.C43_textbook_gradient",
    "Euphonic.DynMat.C43_hermitian"
   ],
   "note": "The code's matrix equals the textbook lattice sum with equal image weights, and is Hermitian (with its gradient) for force constants symmetric under exchanging atoms and reversing the cell vector."
  },
  {
   "property": "C44",
   "status": "proved",
   "theorems": [
    "Euphonic.DynMat.C44_periodic",
    "Euphonic.DynMat.C44_even",
    "Euphonic.DynMat.C44_frequencies"
   ],
   "note": "Matrix and gradients periodic and conjugated under reversal; frequencies periodic and even for any eigensolver satisfying the Hermitian eigenproblem specification. The dipole part is in C50_even, C50_periodic."
  },
  {
   "property": "C45",
   "status": "proved",
   "theorems": [
    "Euphonic.Driver.C45_results",
    "Euphonic.Driver.C45_no_effect",
    "Euphonic.DynMat.C45_no_effect_matrix"
   ],
   "note": "Reduction of repeated q-points: results are those of the full calculation, row by row; for the modelled dynamical matrix the periodicity used is itself proved."
  },
  {
   "property": "C46",
   "status": "proved",
   "theorems": [
    "Euphonic.Driver.C46_insert",
    "Euphonic.Driver.C46_total_weight",
    "Euphonic.Driver.C46_directions"
   ],
   "note": "Splitting of gamma points: insertion, conserved total weight and directions, for all q-point lists."
  },
  {
   "property": "C47",
   "status": "proved",
   "theorems": [
    "Euphonic.Images.C47_images",
    "Euphonic.Images.C47_weights"
   ],
   "note": "Progressive plane tests with early exit record exactly the images whose pair vector passes all plane tests, in order; weights sum to the force constant."
  },
  {
   "property": "C48",
   "status": "partial",
   "theorems": [
    "Euphonic.Asr.C48_selection",
    "Euphonic.Asr.C48_reciprocal_partial",
    "Euphonic.Asr.C48_complex_eigenvectors",
    "Euphonic.Asr.C48_square_matrix",
    "Euphonic.Asr.C48_realspace",
    "Euphonic.Asr.C48_realspace_result"
   ],
   "note": "Real-space correction and acoustic mode selection proved in full. The reciprocal correction zeroes the acoustic frequencies only for real eigenvectors: the code builds e e^T without conjugation (C48_complex_eigenvectors gives the counterexample)."
  },
  {
   "property": "C49",
   "status": "partial",
   "theorems": [
    "Euphonic.Dipole.C49_textbook_partial",
    "Euphonic.Dipole.C49_symmetric",
    "Euphonic.Dipole.C49_scale_partial",
    "Euphonic.Dipole.C49_reversal",
    "Euphonic.Dipole.C49_positive",
    "Euphonic.Dipole.C49_integer_direction_dropped"
   ],
   "note": "Textbook formula for right-handed cells; wrong sign for left-handed ones (C95); correction dropped when the splitting direction is an integer vector (negation proved)"
  },
  {
   "property": "C50",
   "status": "partial",
   "theorems": [
    "Euphonic.Dipole.C50_hermitian",
    "Euphonic.Dipole.C50_even",
    "Euphonic.Dipole.C50_periodic",
    "Euphonic.Dipole.C50_acoustic_sum_partial",
    "Euphonic.Dipole.C50_packed_position",
    "Euphonic.Dipole.C50_one_atom"
   ],
   "note": "Hermitian, conjugated under reversal, periodic away from half-integers, packed indexing right. The sum over atoms at gamma is the antisymmetric part of the stored q=0 term (C50_acoustic_sum_partial), zero only when that term is symmetric."
  },
  {
   "property": "C51",
   "status": "proved",
   "theorems": [
    "Euphonic.DynMat.C51_frequency_sign"
   ],
   "note": "Sign convention, strict order preservation, and equality of the C and Python formulas."
  },
  {
   "property": "C52",
   "status": "partial",
   "theorems": [
    "Euphonic.CExt.C52_dipole_partial",
    "Euphonic.CExt.C52_dyn_mat",
    "Euphonic.CExt.C52_gradient",
    "Euphonic.CExt.C52_upper_partial",
    "Euphonic.CExt.C52_matrix_partial",
    "Euphonic.CExt.C52_asr_symmetric",
    "Euphonic.CExt.C52_frequencies",
    "Euphonic.CExt.C52_mode_gradients",
    "Euphonic.CExt.C52_stale_imaginary"
   ],
   "note": "C arrays hold the conjugate of the Python dynamical matrix (all q, all layouts) and its gradient; the matrix read by LAPACK equals the Python matrix, frequencies and mode gradients agree. Partial: dipole part needs a dielectric tensor whose determinant det_array gets right and no half-integer component of q; near-gamma (not exact) points keep a stale imaginary part (C52_stale_imaginary)."
  },
  {
   "property": "C53",
   "status": "partial",
   "theorems": [
    "Euphonic.CExt.C53_cell_volume",
    "Euphonic.CExt.C53_complex",
    "Euphonic.CExt.C53_det_partial",
    "Euphonic.CExt.C53_det_wrong",
    "Euphonic.CExt.C53_round",
    "Euphonic.CExt.C53_round_half",
    "Euphonic.CExt.C53_is_gamma"
   ],
   "note": "cell_volume, cmult, cmult_conj, is_gamma proved; det_array has a wrong sign (exact condition and counterexample); C round differs from np.rint only at half-integers."
  },
  {
   "property": "C54",
   "status": "partial",
   "theorems": [
    "Euphonic.Omp.C54_schedule_partial",
    "Euphonic.Omp.C54_race_wrong_direction",
    "Euphonic.Omp.C54_race_out_of_range",
    "Euphonic.Omp.C54_outputs_disjoint"
   ],
   "note": "All schedules and thread counts when at most one thread looks up q-directions; races on shared i/qpos otherwise: schedules with wrong direction and out-of-range position exhibited. Outputs of different q-points are disjoint."
  },
  {
   "property": "C55",
   "status": "partial",
   "theorems": [
    "Euphonic.Driver.C55_history_partial",
    "Euphonic.Driver.C55_assignment_stale"
   ],
   "note": "Results do not depend on call history as long as the data are not reassigned; C55_assignment_stale shows that caches survive assignment of new attributes."
  },
  {
   "property": "C56",
   "status": "proved",
   "theorems": [
    "Euphonic.Driver.C56_backend",
    "Euphonic.Driver.C56_same_results"
   ],
   "note": "Backend choice and independence of the results from it, given backends that agree on one q-point (C52)."
  },
  {
   "property": "C57",
   "status": "proved",
   "theorems": [
    "Euphonic.Driver.C57_options"
   ],
   "note": "Options change only what they name."
  },
  {
   "property": "C58",
   "status": "proved",
   "theorems": [
    "Euphonic.CastepBin.C58_record",
    "Euphonic.CastepBin.C58_record_ints",
    "Euphonic.CastepBin.C58_record_floats",
    "Euphonic.CastepBin.C58_record_strings",
    "Euphonic.CastepBin.C58_truncated",
    "Euphonic.CastepBin.C58_markers",
    "Euphonic.CastepBin.C58_odd_length_cut",
    "Euphonic.CastepBin.C58_whole_file"
   ],
   "note": "Truncated .castep_bin files are refused: for every file the reader accepts there is a length c such that every prefix shorter than c raises and everything behind byte c is ignored (C58_whole_file); records of integers, numbers and strings are read back exactly. C58_odd_length_cut: a typed record whose length is not a multiple of the item size can be read as a shorter one."
  },
  {
   "property": "C59",
   "status": "proved",
   "theorems": [
    "Euphonic.Phonon.C59_unaffected",
    "Euphonic.Phonon.C59_sum",
    "Euphonic.Phonon.C59_prefer",
    "Euphonic.Phonon.C59_ambiguous",
    "Euphonic.Phonon.C59_apart_not_merged"
   ],
   "note": "Loop over parsed blocks and the loop over repeated q-points. C59_apart_not_merged: blocks of one q-point that do not follow each other are not recognised, their weights add up."
  },
  {
   "property": "C60",
   "status": "proved",
   "theorems": [
    "Euphonic.Phonon.C60_rows",
    "Euphonic.Phonon.C60_no_padding"
   ],
   "note": "Rows in file order for every relation between announced and actual number of blocks, zero padding at the end."
  },
  {
   "property": "C61",
   "status": "proved",
   "theorems": [
    "Euphonic.Phonopy.C61_normalised",
    "Euphonic.Phonopy.C61_ratios",
    "Euphonic.Phonopy.C61_positive"
   ],
   "note": "Sum one, ratios and positivity for every list of weights."
  },
  {
   "property": "C62",
   "status": "proved",
   "theorems": [
    "Euphonic.Phonopy.C62_phases",
    "Euphonic.Phonopy.C62_overlaps",
    "Euphonic.Phonopy.C62_norm",
    "Euphonic.Phonopy.C62_gamma",
    "Euphonic.Phonopy.C62_eigenvector"
   ],
   "note": "Phase structure, overlaps, norms, gamma; also eigenvectors of the matrix in Phonopy's phase convention become eigenvectors of the matrix in Euphonic's."
  },
  {
   "property": "C63",
   "status": "partial",
   "theorems": [
    "Euphonic.Phonopy.C63_phonon_format",
    "Euphonic.Phonopy.C63_fc_format_partial",
    "Euphonic.Phonopy.C63_fc_short_extensions_refused",
    "Euphonic.Phonopy.C63_fc_substrings_accepted",
    "Euphonic.Phonopy.C63_force_constants",
    "Euphonic.Phonopy.C63_born_from_summary",
    "Euphonic.Phonopy.C63_born_file",
    "Euphonic.Phonopy.C63_factor_missing",
    "Euphonic.Phonopy.C63_born_overridden"
   ],
   "note": "Phonon files, precedence and BORN decisions proved. Missing: force constants files ending in .hd5/.h5 are refused (C63_fc_short_extensions_refused) and if only the factor is absent the BORN file replaces charges of the summary (C63_born_overridden)."
  },
  {
   "property": "C64",
   "status": "proved",
   "theorems": [
    "Euphonic.Phonopy.C64_shapes",
    "Euphonic.Phonopy.C64_refused",
    "Euphonic.Phonopy.C64_header"
   ],
   "note": "Exactly the two shapes; header forms."
  },
  {
   "property": "C65",
   "status": "proved",
   "theorems": [
    "Euphonic.CastepBin.C65_species"
   ],
   "note": "Species expansion of _read_cell: per-species padded positions, masses and symbols become one entry per atom."
  },
  {
   "property": "C66",
   "status": "partial",
   "theorems": [
    "Euphonic.Sampling.C66_golden_square",
    "Euphonic.Sampling.C66_regular_square",
    "Euphonic.Sampling.C66_regular_square_outside",
    "Euphonic.Sampling.C66_recurrence",
    "Euphonic.Sampling.C66_golden_sphere",
    "Euphonic.Sampling.C66_golden_heights",
    "Euphonic.Sampling.C66_golden_zero",
    "Euphonic.Sampling.C66_square_grid",
    "Euphonic.Sampling.C66_polar_grid_partial",
    "Euphonic.Sampling.C66_polar_grid_narrow",
    "Euphonic.Sampling.C66_random",
    "Euphonic.Sampling.C66_improved",
    "Euphonic.Sampling.C66_improved_few",
    "Euphonic.Sampling.C66_few_polar_grid"
   ],
   "note": "Counts, unit norms and the unit square for every sampling, jitter as arbitrary numbers in [0,1). Violations: spherical_polar_grid raises IndexError for a single ring or a single point per ring (C66_polar_grid_narrow), golden_sphere(0) divides by zero, regular_square(offset=False, jitter=True) leaves the square."
  },
  {
   "property": "C67",
   "status": "partial",
   "theorems": [
    "Euphonic.Kinematics.C67_mask_partial",
    "Euphonic.Kinematics.C67_both_or_none",
    "Euphonic.Kinematics.C67_wrongly_masked"
   ],
   "note": "Mask is exact relative to the momentum bounds of the computed cosine range; fails where the cosine range is wrong (C67_wrongly_masked). Exact arithmetic."
  },
  {
   "property": "C68",
   "status": "partial",
   "theorems": [
    "Euphonic.Kinematics.C68_maximum",
    "Euphonic.Kinematics.C68_minimum_partial",
    "Euphonic.Kinematics.C68_half_turn",
    "Euphonic.Kinematics.C68_minimum_missed"
   ],
   "note": "Maximum exact for every interval; minimum exact except for intervals reaching beyond 3 pi after translation (C68_minimum_missed: 270..630 degrees)."
  },
  {
   "property": "C69",
   "status": "partial",
   "theorems": [
    "Euphonic.Broaden.C69_counted_once",
    "Euphonic.Broaden.C69_mixture_partial",
    "Euphonic.Broaden.C69_single_width",
    "Euphonic.Broaden.C69_widest_loses_weight"
   ],
   "note": "Exact mixture formula for every call; shares sum to one for every width below the widest kernel. Violation: a width equal to the widest kernel keeps only polyval(coeffs, 1) of its weight (C69_widest_loses_weight). find_coeffs (least squares) is a parameter."
  },
  {
   "property": "C70",
   "status": "proved",
   "theorems": [
    "Euphonic.Broaden.C70_linear",
    "Euphonic.Broaden.C70_intensity",
    "Euphonic.Broaden.C70_total_kept",
    "Euphonic.Broaden.C70_lorentz_loses",
    "Euphonic.Broaden.C70_single_bin",
    "Euphonic.Broaden.C70_unequal_bins",
    "Euphonic.Broaden.C70_descending_ignored",
    "Euphonic.Broaden.C70_one_axis_x",
    "Euphonic.Broaden.C70_one_axis_y",
    "Euphonic.Broaden.C70_linear_2d",
    "Euphonic.Broaden.C70_intensity_2d",
    "Euphonic.Broaden.C70_linear_function"
   ],
   "note": "Linearity (1D, 2D, width functions), non-negativity and totals for quantity widths; scipy filters by their documentation, exact arithmetic; Lorentzian of width 0 (NaN) excluded. Findings: descending axes are not broadened (C70_descending_ignored), single bins raise."
  },
  {
   "property": "C71",
   "status": "proved",
   "theorems": [
    "Euphonic.Cli.C71_ticks",
    "Euphonic.Cli.C71_breaks",
    "Euphonic.Cli.C71_gamma"
   ],
   "note": "Tick labels, break points and gamma insertion for all label lists"
  },
  {
   "property": "C72",
   "status": "partial",
   "theorems": [
    "Euphonic.Cli.C72_covers_partial",
    "Euphonic.Cli.C72_no_positive_frequency",
    "Euphonic.Cli.C72_limits"
   ],
   "note": "Energy bins cover all frequencies when the largest frequency is positive; C72_no_positive_frequency shows the violation for spectra without a positive frequency"
  },
  {
   "property": "C73",
   "status": "partial",
   "theorems": [
    "Euphonic.Cli.C73_weighting",
    "Euphonic.Cli.C73_weighting_unknown",
    "Euphonic.Cli.C73_total_only",
    "Euphonic.Cli.C73_named_partial",
    "Euphonic.Cli.C73_all_species_partial",
    "Euphonic.Cli.C73_one_species_fails"
   ],
   "note": "Weighting names and arrangement of the lines for all groupings; C73_one_species_fails shows that a crystal of one species raises KeyError; species that are absent are silently dropped when another one is present"
  },
  {
   "property": "C74",
   "status": "partial",
   "theorems": [
    "Euphonic.Cli.C74_limits",
    "Euphonic.Cli.C74_rounds_up",
    "Euphonic.Cli.C74_monotone",
    "Euphonic.Sampling.C74_grid_side",
    "Euphonic.Sampling.C74_qpts_sphere_partial"
   ],
   "note": "Limits, monotony and rounding up of the density, least side of the grid; unit vectors and counts need at least 6 points for the improved polar grid and 3 for the polar grid"
  },
  {
   "property": "C75",
   "status": "proved",
   "theorems": [
    "Euphonic.Symmetry.C75_outcome",
    "Euphonic.Symmetry.C75_table",
    "Euphonic.Symmetry.C75_identity",
    "Euphonic.Symmetry.C75_same_species",
    "Euphonic.Symmetry.C75_symmetric_ok",
    "Euphonic.Symmetry.C75_permutation"
   ],
   "note": "Outcome (RuntimeError exactly when some image of an atom has not exactly one matching atom of its species), table, identity, species, success for symmetric crystals and bijectivity"
  },
  {
   "property": "C76",
   "status": "proved",
   "theorems": [
    "Euphonic.Powder.C76_cart_to_frac",
    "Euphonic.Powder.C76_frac_to_cart",
    "Euphonic.Powder.C76_sphere_modulus"
   ],
   "note": "Exact inverse of the fractional/Cartesian conversion and constant modulus of the sphere q-points"
  },
  {
   "property": "C77",
   "status": "partial",
   "theorems": [
    "Euphonic.TotalFc.C77_positions_iff",
    "Euphonic.TotalFc.C77_total_partial",
    "Euphonic.TotalFc.C77_dielectric_unit",
    "Euphonic.TotalFc.C77_singular",
    "Euphonic.TotalFc.C77_first_cell_symmetric"
   ],
   "note": "The reconstruction is exact for diagonal/symmetric supercell matrices and consistent units; positions are right iff the supercell matrix is symmetric (negation proved), and a dielectric given in another unit is not converted (negation proved)"
  },
  {
   "property": "C78",
   "status": "partial",
   "theorems": [
    "Euphonic.Heap.C78_apart",
    "Euphonic.Heap.C78_turns",
    "Euphonic.Heap.C78_copy",
    "Euphonic.Heap.C78_copy_independent",
    "Euphonic.Heap.C78_copy_equal",
    "Euphonic.Heap.C78_split_partial",
    "Euphonic.Heap.C78_split_frame_partial",
    "Euphonic.Heap.C78_split_shares_metadata",
    "Euphonic.Heap.C78_split_all_partial",
    "Euphonic.Heap.C78_item"
   ],
   "note": "Copies: full independence in both directions under any alternation of mutating programs, and equality. Items of a collection likewise (plain metadata). Pieces of split own their data and ticks but share the metadata dictionary with the original (negation proved)"
  },
  {
   "property": "C79",
   "status": "proved",
   "theorems": [
    "Euphonic.Cli.C79_frequencies_only",
    "Euphonic.Cli.C79_unknown",
    "Euphonic.Cli.C79_castep",
    "Euphonic.Cli.C79_json",
    "Euphonic.Cli.C79_phonopy"
   ],
   "note": "Dispatch for every suffix and content; readers of the individual formats are parameters"
  },
  {
   "property": "C80",
   "status": "partial",
   "theorems": [
    "Euphonic.Powder.C80_widths_partial",
    "Euphonic.Powder.C80_vector_nonneg",
    "Euphonic.Powder.C80_vector_is_norm",
    "Euphonic.Powder.C80_other_shapes",
    "Euphonic.Powder.C80_left_handed_negative"
   ],
   "note": "Non-negative widths for right-handed cells and each accepted shape; a left-handed cell gives negative widths (negation proved)"
  },
  {
   "property": "C81",
   "status": "proved",
   "theorems": [
    "Euphonic.C81_regular_bins",
    "Euphonic.C81_regular_centres_refused"
   ],
   "note": "criterion, and the finding that evenly spaced centres are refused"
  },
  {
   "property": "C82",
   "status": "proved",
   "theorems": [
    "Euphonic.Dos.C82_dos_map"
   ],
   "note": "Each row is the DOS of its q-point; weighted mean of rows is calculate_dos."
  },
  {
   "property": "C83",
   "status": "partial",
   "theorems": [
    "Euphonic.Scatter.C83_weights_lost",
    "Euphonic.Scatter.C83_equal_weights_kept_partial"
   ],
   "note": "Violated: weights are reset to equal ones (C83_weights_lost); kept only when they were equal already."
  },
  {
   "property": "C84",
   "status": "proved",
   "theorems": [
    "Euphonic.CastepBin.C84_file",
    "Euphonic.CastepBin.C84_no_force_constants"
   ],
   "note": "Whole-file round trip through a specification of the castep_bin layout. Numbers are assumed to be inverted by the decoding of eight bytes (struct); version parsing is a parameter."
  },
  {
   "property": "C85",
   "status": "proved",
   "theorems": [
    "Euphonic.Phonopy.C85_round_trip",
    "Euphonic.Phonopy.C85_truncated"
   ],
   "note": "Lines as lists of numbers; text to number conversion not modelled."
  },
  {
   "property": "C86",
   "status": "proved",
   "theorems": [
    "Euphonic.Phonopy.C86_round_trip",
    "Euphonic.Phonopy.C86_bad_line"
   ],
   "note": "Lines as lists of numbers."
  },
  {
   "property": "C87",
   "status": "proved",
   "theorems": [
    "Euphonic.Phonopy.C87_brackets",
    "Euphonic.Phonopy.C87_no_denominator"
   ],
   "note": "Finding: a unit without denominator gets an unclosed bracket (C87_no_denominator)."
  },
  {
   "property": "C88",
   "status": "proved",
   "theorems": [
    "Euphonic.Phonopy.C88_maps",
    "Euphonic.Phonopy.C88_same",
    "Euphonic.Phonopy.C88_absent_off_by_one"
   ],
   "note": "Finding: without reduced_to the indices are off by one (C88_absent_off_by_one)."
  },
  {
   "property": "C89",
   "status": "partial",
   "theorems": [
    "Euphonic.Phonopy.C89_matrix",
    "Euphonic.Phonopy.C89_positions",
    "Euphonic.Phonopy.C89_transposed",
    "Euphonic.Phonopy.C89_symmetric_partial"
   ],
   "note": "Proved when the supercell is S U; with Phonopy's convention (supercell S^T U) this holds for symmetric S only and C89_transposed shows it fails otherwise."
  },
  {
   "property": "C90",
   "status": "proved",
   "theorems": [
    "Euphonic.DynMat.C90_equation_of_motion"
   ],
   "note": "Over the exact dynamical matrix assembled by the model, eigenvectors from any function meeting the specification of eigh."
  },
  {
   "property": "C91",
   "status": "partial",
   "theorems": [
    "Euphonic.Broaden.C91_gauss_partial",
    "Euphonic.Broaden.C91_lorentz_actual_width",
    "Euphonic.Broaden.C91_lorentz_too_wide",
    "Euphonic.Broaden.C91_constant_function",
    "Euphonic.Broaden.C91_function_width"
   ],
   "note": "Gaussian exact; width functions exact for both shapes. Violation: Lorentzian with a quantity is n/(n-1) times too wide on n bins (C91_lorentz_actual_width, C91_lorentz_too_wide)."
  },
  {
   "property": "C92",
   "status": "partial",
   "theorems": [
    "Euphonic.Broaden.C92_spacing_above_one",
    "Euphonic.Broaden.C92_smaller_error_closer_partial",
    "Euphonic.Broaden.C92_lorentz_error_ignored"
   ],
   "note": "Gaussian: both fits. Violation: for Lorentzian kernels the spacing is constant (C92_lorentz_error_ignored)."
  },
  {
   "property": "C93",
   "status": "partial",
   "theorems": [
    "Euphonic.Broaden.C93_limit_partial",
    "Euphonic.Broaden.C93_limit_on_sigma",
    "Euphonic.Broaden.C93_conventions"
   ],
   "note": "Holds for std and for Lorentzian. Violation: default convention compares the limit with sigma (C93_limit_on_sigma)."
  },
  {
   "property": "C94",
   "status": "proved",
   "theorems": [
    "Euphonic.Cli.C94_q_bins",
    "Euphonic.Cli.C94_reversed"
   ],
   "note": "Edges of the |q| bins for all ranges and spacings"
  },
  {
   "property": "C95",
   "status": "partial",
   "theorems": [
    "Euphonic.Dipole.C95_dipole_cyclic_partial",
    "Euphonic.Dipole.C95_dipole_exchange",
    "Euphonic.Dipole.C95_loto_cyclic_partial",
    "Euphonic.Dipole.C95_loto_exchange",
    "Euphonic.Dipole.C95_loto_wrong_sign",
    "Euphonic.Dipole.C95_not_independent"
   ],
   "note": "Cyclic orders proved; an exchange of two vectors flips the sign of both corrections because the volume is signed (negation proved)"
  },
  {
   "property": "C96",
   "status": "partial",
   "theorems": [
    "Euphonic.Heap.C96_mul",
    "Euphonic.Heap.C96_imul_partial",
    "Euphonic.Heap.C96_setter_alias",
    "Euphonic.Heap.C96_getter_alias",
    "Euphonic.Heap.C96_getter_converted_partial"
   ],
   "note": "Proved for __mul__, and for __imul__ between objects that share nothing; data read or assigned in the internal unit are shared, so in-place scaling shows elsewhere (negations proved; the sharing relies on pint returning the same array when units agree)"
  },
  {
   "property": "C97",
   "status": "partial",
   "theorems": [
    "Euphonic.CastepText.C97_blocks",
    "Euphonic.CastepText.C97_read",
    "Euphonic.CastepText.C97_no_cell_never_ends",
    "Euphonic.CastepText.C97_cut_partial",
    "Euphonic.CastepText.C97_cut_inside",
    "Euphonic.CastepText.C97_boundary_accepted",
    "Euphonic.CastepText.C97_cut_eigenvectors_accepted"
   ],
   "note": "Every file of the layout is read back exactly (C97_blocks, C97_read); with eigenvectors a file cut inside a block is refused (C97_cut_inside) and only cuts at a block boundary are accepted (C97_cut_partial). Missing, because false: cuts at a block boundary are accepted with rows of zeros (C97_boundary_accepted), without eigenvectors a cut inside the last eigenvectors is accepted (C97_cut_eigenvectors_accepted), and a header without 'Unit cell vectors' is searched for ever (C97_no_cell_never_ends)."
  },
  {
   "property": "C98",
   "status": "partial",
   "theorems": [
    "Euphonic.CastepText.C98_read_partial",
    "Euphonic.CastepText.C98_spectrum",
    "Euphonic.CastepText.C98_collection",
    "Euphonic.CastepText.C98_heading_ignored",
    "Euphonic.CastepText.C98_cut_table_accepted",
    "Euphonic.CastepText.C98_short_table",
    "Euphonic.CastepText.C98_one_bin",
    "Euphonic.CastepText.C98_complete_gradients"
   ],
   "note": "Files with at least two bins are read exactly (C98_read_partial, C98_spectrum, C98_collection), incomplete gradients and tables that end early are refused (C98_complete_gradients, C98_short_table). Missing, because false: the heading of the table is ignored, columns are attributed by order of first atoms (C98_heading_ignored); a file that ends inside its table is accepted (C98_cut_table_accepted); one bin is refused (C98_one_bin)."
  },
  {
   "property": "C99",
   "status": "partial",
   "theorems": [
    "Euphonic.RefData.C99_reference_partial",
    "Euphonic.RefData.C99_whole_numbers_dropped",
    "Euphonic.RefData.C99_refused",
    "Euphonic.RefData.C99_documented_layout_refused"
   ],
   "note": "Whole numbers in a table are dropped (C99_whole_numbers_dropped; shipped data: Sm, Th, Xe, Yb) and the layout given in the docstring is refused (C99_documented_layout_refused); everything else is proved."
  },
  {
   "property": "C100",
   "status": "partial",
   "theorems": [
    "Euphonic.RefData.C100_dictionary",
    "Euphonic.RefData.C100_unweighted",
    "Euphonic.RefData.C100_single",
    "Euphonic.RefData.C100_sum",
    "Euphonic.RefData.C100_whole_number_refused",
    "Euphonic.RefData.C100_wrong_dimension"
   ],
   "note": "Proved for all tables except that a species whose cross-section is written as a whole number is refused (C100_whole_number_refused)."
  },
  {
   "property": "C101",
   "status": "partial",
   "theorems": [
    "Euphonic.DosCli.C101_kind",
    "Euphonic.DosCli.C101_twice",
    "Euphonic.DosCli.C101_alias",
    "Euphonic.DosCli.C101_not_adaptive",
    "Euphonic.DosCli.C101_once",
    "Euphonic.DosCli.C101_output_scale",
    "Euphonic.DosCli.C101_scale_zero_ignored",
    "Euphonic.DosCli.C101_scale"
   ],
   "note": "Everything proved except that --adaptive-scale 0 is ignored (C101_scale_zero_ignored)."
  },
  {
   "property": "C102",
   "status": "partial",
   "theorems": [
    "Euphonic.DosCli.C102_fixed_width_partial",
    "Euphonic.DosCli.C102_adaptive_too_wide"
   ],
   "note": "Holds without --adaptive for Gaussians as far as the kernel reaches; with --adaptive the width is used as a standard deviation, 2.355 times too wide (C102_adaptive_too_wide). Lorentzians: see C91."
  },
  {
   "property": "C103",
   "status": "partial",
   "theorems": [
    "Euphonic.Broaden.C103_default_limit",
    "Euphonic.Broaden.C103_rows_partial",
    "Euphonic.Broaden.C103_columns_partial",
    "Euphonic.Broaden.C103_axes_independent",
    "Euphonic.Broaden.C103_centres_too_wide",
    "Euphonic.Broaden.C103_same_object"
   ],
   "note": "Cuts on axes accepted by Spectrum1D.broaden; axis independence and order for all nine combinations of widths (widths of zero and bins of zero width excluded). Violations: an axis of bin centres is not refused and the peaks become twice as wide (C103_centres_too_wide); without a width that is used the object itself is returned (C103_same_object)."
  },
  {
   "property": "C104",
   "status": "proved",
   "theorems": [
    "Euphonic.Broaden.C104_lines",
    "Euphonic.Broaden.C104_refused",
    "Euphonic.Broaden.C104_empty"
   ],
   "note": "Values only: the metadata of the collection are those of C05-C07. An empty collection behaves differently for the two kinds of width (C104_empty)."
  },
  {
   "property": "C105",
   "status": "proved",
   "theorems": [
    "Euphonic.Phonopy.C105_yaml",
    "Euphonic.Phonopy.C105_formats",
    "Euphonic.Phonopy.C105_eigenvectors_missing",
    "Euphonic.Phonopy.C105_ragged",
    "Euphonic.Phonopy.C105_not_commensurate"
   ],
   "note": "All three layouts, for all sizes with at least one atom and one q-point. Files are the nested lists and arrays returned by yaml and h5py; reading the summary itself is a parameter here."
  },
  {
   "property": "C106",
   "status": "proved",
   "theorems": [
    "Euphonic.Plot.C106_points",
    "Euphonic.Plot.C106_label_argument",
    "Euphonic.Plot.C106_bins",
    "Euphonic.Plot.C106_refused"
   ],
   "note": "Model of the calls to Matplotlib; for spectra of points and of bins (where the line breaks behind bins of no width)."
  },
  {
   "property": "C107",
   "status": "partial",
   "theorems": [
    "Euphonic.Plot.C107_widths_partial",
    "Euphonic.Plot.C107_units",
    "Euphonic.Plot.C107_line_colours",
    "Euphonic.Plot.C107_images",
    "Euphonic.Plot.C107_limits",
    "Euphonic.Plot.C107_scale_partial",
    "Euphonic.Plot.C107_scale_units_mixed",
    "Euphonic.Plot.C107_map_widths"
   ],
   "note": "Range of colours only for maps in one unit (C107_scale_units_mixed shows the failure otherwise); widths only if the first subplot has a positive extent."
  },
  {
   "property": "C108",
   "status": "proved",
   "theorems": [
    "Euphonic.Brille.C108_grid_points",
    "Euphonic.Brille.C108_interpolation_arguments",
    "Euphonic.Brille.C108_frequencies_agree",
    "Euphonic.Brille.C108_layout",
    "Euphonic.Brille.C108_shapes_checked",
    "Euphonic.Brille.C108_grid_arguments",
    "Euphonic.Brille.C108_grid_size",
    "Euphonic.Brille.C108_grid_density",
    "Euphonic.Brille.C108_argument_changed"
   ],
   "note": "Brille (grid generation, interpolation) and the Fourier interpolation are parameters; exactness at grid points is the hypothesis on Brille. C108_argument_changed shows a side effect: the caller's interpolation_kwargs dictionary is overwritten."
  },
  {
   "property": "C109",
   "status": "partial",
   "theorems": [
    "Euphonic.DispCli.C109_file_partial",
    "Euphonic.DispCli.C109_force_constants",
    "Euphonic.DispCli.C109_one_gap",
    "Euphonic.DispCli.C109_reorder_refused",
    "Euphonic.DispCli.C109_reorder_energies",
    "Euphonic.DispCli.C109_stretch_without_label"
   ],
   "note": "Model/DispCli.lean, Props/DispCli.lean: files (drawn if and only if every stretch between gaps has a labelled q-point; always with at most one gap) and force constants (always). The claim is false for files with a stretch between two gaps without labelled q-point (C109_stretch_without_label, finding 49). Reading, Seekpath, modes and reordering are parameters."
  },
  {
   "property": "C110",
   "status": "partial",
   "theorems": [
    "Euphonic.IntensityCli.C110_file_partial",
    "Euphonic.IntensityCli.C110_force_constants",
    "Euphonic.IntensityCli.C110_refused",
    "Euphonic.IntensityCli.C110_coefficients_ignored",
    "Euphonic.IntensityCli.C110_scaled",
    "Euphonic.IntensityCli.C110_density",
    "Euphonic.IntensityCli.C110_broadening_ignores_gaps",
    "Euphonic.IntensityCli.C110_stretch_without_label"
   ],
   "note": "Everything but two things the code does not do: paths with a stretch without labelled points cannot be drawn (C110_stretch_without_label), and of the coefficients of --energy-broadening all but the first are ignored (C110_coefficients_ignored). Structure factor and Debye-Waller factor are a parameter."
  },
  {
   "property": "C111",
   "status": "partial",
   "theorems": [
    "Euphonic.PowderCli.C111_map_partial",
    "Euphonic.PowderCli.C111_drawn",
    "Euphonic.PowderCli.C111_single_species",
    "Euphonic.PowderCli.C111_refused"
   ],
   "note": "The whole chain from force constants to the image, and that it is drawn for all widths. Missing: angle ranges both limits of which are right angles (C67); --pdos fails for crystals with one species (C111_single_species)."
  },
  {
   "property": "C112",
   "status": "partial",
   "theorems": [
    "Euphonic.Tools.C112_optimum_partial",
    "Euphonic.Tools.C112_runs",
    "Euphonic.Tools.C112_refused",
    "Euphonic.Tools.C112_above_maximum"
   ],
   "note": "Proved: values tried, calls timed, first minimum with its own times, all multiples of the step up to the maximum, errors. Code violates the claim: a value up to a hundredth of a step above the maximum can be tried (C112_above_maximum)."
  },
  {
   "property": "C113",
   "status": "proved",
   "theorems": [
    "Euphonic.Tools.C113_shown",
    "Euphonic.Tools.C113_refused"
   ],
   "note": "Number, dimension and place of all points for every scheme; errors. Built on the samplings of C66."
  },
  {
   "property": "C114",
   "status": "proved",
   "theorems": [
    "Euphonic.Tools.C114_panels",
    "Euphonic.Tools.C114_finishes",
    "Euphonic.Tools.C114_refused"
   ],
   "note": "All panels and residuals, success, errors. Phonon calculations, Brille and the broadening are parameters. The function's own defaults (a number for brille_npts, no n_threads) always raise an error: C114_refused."
  },
  {
   "property": "C115",
   "status": "proved",
   "theorems": [
    "Euphonic.Labels.C115_table",
    "Euphonic.Labels.C115_generic_label",
    "Euphonic.Labels.C115_labels_used",
    "Euphonic.Labels.C115_tick_text",
    "Euphonic.Labels.C115_axis",
    "Euphonic.Labels.C115_rolled_wrong"
   ],
   "note": "Rolling of coordinates mislabels points where the lattice has no cyclic symmetry (C115_rolled_wrong, finding 55); seekpath's own tables are a parameter."
  },
  {
   "property": "C116",
   "status": "partial",
   "theorems": [
    "Euphonic.TextFile.C116_add_partial",
    "Euphonic.TextFile.C116_comm",
    "Euphonic.TextFile.C116_other_unit",
    "Euphonic.TextFile.C116_one_bin"
   ],
   "note": "Violated: compatible but different units are refused (C116_other_unit) and one bin is broadcast over two points (C116_one_bin). The sum is proved for equal units and equal numbers of values."
  },
  {
   "property": "C117",
   "status": "proved",
   "theorems": [
    "Euphonic.TextFile.C117_file",
    "Euphonic.TextFile.C117_formats",
    "Euphonic.TextFile.C117_spectrum"
   ],
   "note": "json.dumps, the version and the formatting of numbers are parameters; formats must not write spaces, hashes or line breaks."
  },
  {
   "property": "C118",
   "status": "partial",
   "theorems": [
    "Euphonic.Strided.C118_call_partial",
    "Euphonic.Strided.C118_integers_overrun",
    "Euphonic.Strided.C118_missing",
    "Euphonic.Strided.C118_atom_r_partial",
    "Euphonic.Strided.C118_atom_r_wrong"
   ],
   "note": "Holds for arguments and attributes given as doubles where C takes doubles and integers where C takes integers. Violated: integer arrays where C takes doubles become int32 and C reads beyond their end (C118_integers_overrun); crystal.atom_r is looked for on the force constants instead of the crystal and is passed to C in whatever order it has (C118_atom_r_wrong)."
  },
  {
   "property": "C119",
   "status": "partial",
   "theorems": [
    "Euphonic.CAddr.C119_within_arrays_partial",
    "Euphonic.CAddr.C119_overflow",
    "Euphonic.CWork.C119_workspace_partial",
    "Euphonic.CWork.C119_query_partial",
    "Euphonic.CWork.C119_query_overrun"
   ],
   "note": "Holds if no array has 2^31 elements or more. Violated for eigenvectors of 2^31 doubles (16 GiB) or more, e.g. 100 atoms and 12000 q-points: the position of the matrix of a q-point is computed in 32-bit integers and overflows (C119_overflow). LAPACK's work space: the diagonalisation stays within what is allocated (C119_workspace_partial), but the query for the sizes writes 16 bytes to a variable of 8 (C119_query_overrun). That the position of a split q-point is found and not changed by another thread is C54."
  },
  {
   "property": "C120",
   "status": "proved",
   "theorems": [
    "Euphonic.CLoop.C120_alone",
    "Euphonic.CLoop.C120_eigenvectors_kept_or_not"
   ],
   "note": "The loop over the q-points of one thread with its three buffers, in the flat memory layout of the C code; hypotheses: dipole data for the same number of atoms; splitting only with dipole corrections (as in Python)."
  },
  {
   "property": "C121",
   "status": "partial",
   "theorems": [
    "Euphonic.CLoop.C121_diagonalised_partial",
    "Euphonic.CLoop.C121_failure_not_raised"
   ],
   "note": "Where LAPACK succeeds. Violated otherwise: the return value is ignored in C and the failure only printed (C121_failure_not_raised)."
  },
  {
   "property": "C122",
   "status": "partial",
   "theorems": [
    "Euphonic.CRefs.C122_returns_iff",
    "Euphonic.CRefs.C122_references_partial",
    "Euphonic.CRefs.C122_n_atoms_leaked",
    "Euphonic.CRefs.C122_failure_leaks",
    "Euphonic.CRefs.C122_missing"
   ],
   "note": "Completed calls restore all reference counts except that of n_atoms (C122_n_atoms_leaked); failing calls leak (C122_failure_leaks); missing n_atoms or lambda is undefined behaviour, everything else raises (C122_missing)."
  },
  {
   "property": "C123",
   "status": "partial",
   "theorems": [
    "Euphonic.Reduced.C123_nearest_partial",
    "Euphonic.Reduced.C123_within_one",
    "Euphonic.Reduced.C123_gamma_partial",
    "Euphonic.Reduced.C123_hermitian_partial",
    "Euphonic.Reduced.C123_lost",
    "Euphonic.Reduced.C123_not_nearest"
   ],
   "note": "Proved for supercells whose vectors are reduced (no combination of the vectors with coefficients -1, 0, 1 that contains a vector is shorter than it), in exact real arithmetic: the images found are nearest among all lattice translations, each pair has one, and the dynamical matrix at q = 0 is the plain sum and Hermitian without further conditions. For other supercells the claim is false: C123_lost, C123_not_nearest."
  },
  {
   "property": "C124",
   "status": "partial",
   "theorems": [
    "Euphonic.CLoop.C124_direction",
    "Euphonic.CLoop.C124_results_partial",
    "Euphonic.CLoop.C124_gradients_partial"
   ],
   "note": "Exact real arithmetic; LAPACK is a function of the Hermitian matrix it is given and does not fail. Not covered because the two differ there: with dipole corrections, coordinates that are exactly a half (C53_round_half) and dielectric constants for which the C determinant is wrong (C53_det_wrong); with splitting and reduce_qpts=False, gamma points that are not exactly lattice vectors (C52_stale_imaginary); races between threads (C54_race_wrong_direction). For gradients C124_gradients_partial asks only for Hermitian dynamical matrices and a cell volume that is not zero (C123_hermitian_partial)."
  },
  {
   "property": "C125",
   "status": "partial",
   "theorems": [
    "Euphonic.Style.C125_explicit_partial",
    "Euphonic.Style.C125_sheets",
    "Euphonic.Style.C125_unit",
    "Euphonic.Style.C125_zero_ignored",
    "Euphonic.Style.C125_base_changed"
   ],
   "note": "Options that are not zero or empty take effect over all style sheets; precedence of sheets and base style proved. Zero-valued options are ignored (C125_zero_ignored), and the list of base styles of the caller is changed (C125_base_changed)."
  },
  {
   "property": "C126",
   "status": "partial",
   "theorems": [
    "Euphonic.Gradient.C126_matrix_gradient",
    "Euphonic.Gradient.C126_gradient_hermitian",
    "Euphonic.Gradient.C126_gradients_partial",
    "Euphonic.Gradient.C126_imaginary_sign",
    "Euphonic.Gradient.C126_dipole_missing",
    "Euphonic.Gradient.C126_imaginary_wrong",
    "Euphonic.Gradient.C126_dipole_wrong",
    "Euphonic.Gradient.C126_degenerate_sum",
    "Euphonic.Gradient.C126_degenerate_imaginary",
    "Euphonic.Gradient.C126_good",
    "Euphonic.Gradient.C126_degenerate_wrong"
   ],
   "note": "The gradient of the dynamical matrix is its derivative along every path (C126_matrix_gradient) and Hermitian; frequencies that are positive and simple have the reported gradient as derivative, without dipole correction. Imaginary modes: minus the reported one (C126_imaginary_sign, witness C126_imaginary_wrong); with dipole correction: the exact missing term (C126_dipole_missing), with a crystal for which it is not zero (C126_dipole_wrong). Modes of equal frequency: the sum of the reported gradients is the derivative of the sum of the frequencies (C126_degenerate_sum), single ones are not slopes (witness C126_degenerate_wrong). C126_good: symmetric force constants in a reduced supercell meet the hypotheses."
  },
  {
   "property": "C127",
   "status": "proved",
   "theorems": [
    "Euphonic.Args.C127_typed",
    "Euphonic.Args.C127_exclusive",
    "Euphonic.Args.C127_exclusive_refused",
    "Euphonic.Args.C127_build",
    "Euphonic.Args.C127_dos",
    "Euphonic.Args.C127_intensity",
    "Euphonic.Args.C127_dipole",
    "Euphonic.Args.C127_dispersion",
    "Euphonic.Args.C127_powder",
    "Euphonic.Args.C127_brille",
    "Euphonic.Args.C127_sampling",
    "Euphonic.Args.C127_dipole_call",
    "Euphonic.Args.C127_brille_call",
    "Euphonic.Args.C127_kwargs"
   ],
   "note": "argparse (parse_args with option strings, abbreviations, explicit values, '--', mutually exclusive groups, conflict handling) and all parsers of the tools are modelled; int() and float() are parameters. The attributes of each tool are listed in a table (ArgsTools) that was read off the code using them. A parser cannot be set up exactly for two combinations of features, which no tool uses (C127_build)."
  },
  {
   "property": "C128",
   "status": "partial",
   "theorems": [
    "Euphonic.Args.C128_roundtrip_partial",
    "Euphonic.Args.C128_swallowed",
    "Euphonic.Args.C128_exponent",
    "Euphonic.Args.C128_dos_wrong"
   ],
   "note": "Proved for command lines where the file name does not follow an option that can take it for a value (C128_roundtrip_partial; or after '--'). Otherwise the claim is false: the file name after --pdos, --energy-broadening, --style, ... is taken for one more value and the command line refused (C128_swallowed, C128_dos_wrong), and so is a negative number in exponent notation (C128_exponent)."
  },
  {
   "property": "C129",
   "status": "partial",
   "theorems": [
    "Euphonic.Commensurate.C129_exact_partial",
    "Euphonic.Commensurate.C129_normal_mode_partial",
    "Euphonic.Commensurate.C129_stable_partial",
    "Euphonic.Commensurate.C129_lost"
   ],
   "note": "Proved for reduced supercells (ReducedSupercell: vectors reduced in the sense of C123, atoms within one supercell of each other, two shells of images): Fourier sum, normal modes of the periodic supercell, no negative frequencies for a stable supercell. C129_lost: in a skewed supercell the force constants of a pair of atoms are lost also at wavevectors that fit."
  },
  {
   "property": "C130",
   "status": "partial",
   "theorems": [
    "Euphonic.Acoustic.C130_translation_partial",
    "Euphonic.Acoustic.C130_dipole_partial",
    "Euphonic.Acoustic.C130_reciprocal_partial",
    "Euphonic.Acoustic.C130_realspace_partial",
    "Euphonic.Acoustic.C130_lost"
   ],
   "note": "Proved for reduced supercells: three exact zeros for translation invariant force constants, also with the dipole correction if its q=0 tensor is symmetric (e.g. isotropic Born charges, q0Raw_isotropic; C50 for the general case); reciprocal correction for real eigenvectors (C48_complex_eigenvectors shows what happens otherwise); real-space correction if the acoustic modes found are the same in all cells. C130_lost: in a skewed cell translation invariant force constants give no acoustic modes."
  },
  {
   "property": "C131",
   "status": "partial",
   "theorems": [
    "Euphonic.Describe.C131_frequencies_partial",
    "Euphonic.Describe.C131_eigenvectors_partial",
    "Euphonic.Describe.C131_polar_shells_partial",
    "Euphonic.Describe.C131_polar_partial",
    "Euphonic.Describe.Lost.C131_reciprocal_lost",
    "Euphonic.Describe.C131_debye_waller_partial",
    "Euphonic.Describe.C131_structure_factor_partial"
   ],
   "note": "Proved for reduced supercells (ReducedSupercell): without corrections for frequencies, eigenvectors, Debye-Waller factors, structure factors summed with any function of the frequency (which covers S(q,w)); with the dipole correction and the LO-TO splitting for frequencies (C131_polar_shells_partial, C131_polar_partial), if axes are exchanged or reversed, the origin moved, atoms reordered, or the crystal rotated such that the same shells of cells are summed; shells around each pair of atoms are cut, so moving single atoms by lattice vectors and general choices of the unit cell are not covered there (what the sums converge to is the same for all descriptions, C158). C131_reciprocal_lost: with asr='reciprocal' it is false, the correction found at the gamma point is added without phases, so an atom moved by a lattice vector changes the frequencies away from gamma."
  },
  {
   "property": "C132",
   "status": "partial",
   "theorems": [
    "Euphonic.Describe.C132_equivalent_partial",
    "Euphonic.Describe.C132_polar_partial"
   ],
   "note": "Proved for reduced supercells (ReducedSupercell), as the case of C131 where both descriptions are the same: without corrections for all operations, with dipole correction and LO-TO splitting (C132_polar_partial) for proper operations that exchange or reverse axes. For the complete sums it holds for all operations (C158_equivalent)."
  },
  {
   "property": "C133",
   "status": "proved",
   "theorems": [
    "Euphonic.Stability.C133_force_constants",
    "Euphonic.Stability.C133_wavevector",
    "Euphonic.Stability.C133_continuous"
   ],
   "note": "Weyl's inequality for matrices that an eigensolver meeting IsEigh diagonalises; correction terms are arbitrary Hermitian matrices, the same on both sides."
  },
  {
   "property": "C134",
   "status": "proved",
   "theorems": [
    "Euphonic.Scatter.C134_bose_mono",
    "Euphonic.Scatter.C134_bose_zero",
    "Euphonic.Scatter.C134_bose_classical",
    "Euphonic.Scatter.C134_exponents_grow",
    "Euphonic.Scatter.C134_exponents_zero",
    "Euphonic.Scatter.C134_exponents_classical"
   ],
   "note": "Limits with the real exponential and hyperbolic tangent; exponents with any symmetry operations except for the classical limit."
  },
  {
   "property": "C135",
   "status": "proved",
   "theorems": [
    "Euphonic.Scatter.C135_sum_rule",
    "Euphonic.Scatter.C135_any_temperature",
    "Euphonic.Scatter.C135_first_moment",
    "Euphonic.Scatter.C135_any_force_constants"
   ],
   "note": "Structure factors as calculated, with or without Debye-Waller object; the map through calculateSqwMap; modes calculated from force constants meet the hypothesis of orthonormal eigenvectors."
  },
  {
   "property": "C136",
   "status": "partial",
   "theorems": [
    "Euphonic.DebyeSym.C136_reduced_partial",
    "Euphonic.DebyeSym.C136_returns",
    "Euphonic.DebyeSym.C136_irreducible_partial",
    "Euphonic.DebyeSym.C136_symmetric_set_partial"
   ],
   "note": "Model/DebyeSym.lean (rotations in Cartesian coordinates, table of equivalent atoms), Props/DebyeGrid.lean: reduced sets in general (C136_reduced_partial), orbits of a group (C136_irreducible_partial), symmetric sets (C136_symmetric_set_partial), nothing raised (C136_returns). Proved for reduced supercells (ReducedSupercell) and without LO-TO and sum rule corrections; for polar crystals see C163. spglib is a parameter; its operations are assumed to be exact symmetries."
  },
  {
   "property": "C137",
   "status": "partial",
   "theorems": [
    "Euphonic.DebyeSym.C137_group_partial",
    "Euphonic.DebyeSym.C137_species_partial",
    "Euphonic.DebyeSym.C137_atom_mean_partial",
    "Euphonic.DebyeSym.C137_dos_partial",
    "Euphonic.DebyeSym.Square.C137_atom_lost"
   ],
   "note": "Holds for the total density of states, for each species and for any set of atoms the operations only exchange; violated for single atoms (C137_atom_lost). Reduced supercells, no acoustic sum rule, no broadening; for polar crystals see C163."
  },
  {
   "property": "C138",
   "status": "partial",
   "theorems": [
    "Euphonic.Folding.C138_mode_partial",
    "Euphonic.Folding.C138_frequencies_partial",
    "Euphonic.Folding.C138_debye_waller_partial",
    "Euphonic.Folding.C138_pdos_partial",
    "Euphonic.Folding.C138_species_partial",
    "Euphonic.Folding.C138_dos_partial",
    "Euphonic.Folding.C138_structure_factor_partial"
   ],
   "note": "Supercells that are reduced (as in C131), no acoustic sum rule correction, no broadening, no symmetrisation of the Debye-Waller exponents; dipole terms are covered by C160 (modes, frequencies) and C174 (structure factors, Debye-Waller exponents, densities of states), asr='realspace' by C175_unchanged for force constants that obey the sum rule. Single modes (C138_mode_partial), frequencies with multiplicities, densities of states, species, single atoms, Debye-Waller exponents and structure factors are proved; Multiple.Relates.exists_folded shows that the wavevectors that are folded onto each other always exist in the right number (characters of the quotient of the lattices)."
  },
  {
   "property": "C139",
   "status": "proved",
   "theorems": [
    "Euphonic.Args.C139_meaning",
    "Euphonic.Args.C139_dos",
    "Euphonic.Args.C139_intensity",
    "Euphonic.Args.C139_dipole",
    "Euphonic.Args.C139_dispersion",
    "Euphonic.Args.C139_powder",
    "Euphonic.Args.C139_brille",
    "Euphonic.Args.C139_sampling",
    "Euphonic.Args.C139_unknown"
   ],
   "note": "argparse is modelled (see C127), int() and float() are parameters. C139_meaning: acceptance and values for any sound parser, with every way of writing options. C139_dos, _dispersion, _intensity, _powder, _dipole, _brille, _sampling: each tool has exactly the listed options and the documented defaults. C139_unknown: unknown options are refused."
  },
  {
   "property": "C140",
   "status": "proved",
   "theorems": [
    "Euphonic.PowderSample.C140_given_bins",
    "Euphonic.PowderSample.C140_default_bins",
    "Euphonic.PowderSample.C140_stable",
    "Euphonic.PowderSample.C140_unstable",
    "Euphonic.PowderSample.C140_all_zero",
    "Euphonic.PowderSample.C140_all_negative",
    "Euphonic.PowderSample.C140_pdos",
    "Euphonic.PowderSample.C140_structure_factor",
    "Euphonic.PowderSample.C140_structure_factor_total",
    "Euphonic.PowderSample.C140_temperature_alone",
    "Euphonic.PowderSample.C140_temperature_and_dw",
    "Euphonic.PowderSample.C140_dw_alone"
   ],
   "note": "Modes at a q-point, structure factors and the calculation of Debye-Waller exponents are parameters (C01-C18, C42, C44). Rounding is not modelled: with floating point numbers the highest default edge is 1.05 times the highest energy up to rounding. A structure factor with all default edges zero, where numpy divides zero by zero, is not covered."
  },
  {
   "property": "C141",
   "status": "partial",
   "theorems": [
    "Euphonic.PhonopyFc.C141_units",
    "Euphonic.PhonopyFc.C141_blocks",
    "Euphonic.PhonopyFc.C141_positions_partial",
    "Euphonic.PhonopyFc.C141_crystal",
    "Euphonic.PhonopyFc.C141_dielectric",
    "Euphonic.PhonopyFc.C141_permittivity",
    "Euphonic.PhonopyFc.C141_nac_term",
    "Euphonic.PhonopyFc.C141_fc_file",
    "Euphonic.PhonopyFc.C141_born_file",
    "Euphonic.PhonopyFc.C141_old_format",
    "Euphonic.PhonopyFc.C141_factor_missing",
    "Euphonic.PhonopyFc.C141_no_charges",
    "Euphonic.PhonopyFc.C141_names",
    "Euphonic.PhonopyFc.C141_default_units",
    "Euphonic.PhonopyFc.C141_shifted"
   ],
   "note": "Everything but the positions is proved for all contents of the files. The claim on positions is proved when the coordinates of the primitive cell lie in the same cell (C141_positions_partial; exactly, for any coordinates, with those of the file instead of those of the imported crystal: C141_blocks) and false otherwise (C141_shifted): the crystal is normalised to [0, 1), the force constants are converted with the coordinates as written. YAML, HDF5 and pint are not modelled: unit values are parameters."
  },
  {
   "property": "C142",
   "status": "proved",
   "theorems": [
    "Euphonic.Broaden.C142_kernel_area",
    "Euphonic.Broaden.C142_gauss_value",
    "Euphonic.Broaden.C142_gauss_any_width",
    "Euphonic.Broaden.C142_lorentz_value",
    "Euphonic.Broaden.C142_lorentz_gain",
    "Euphonic.Broaden.C142_spectrum",
    "Euphonic.Broaden.C142_spectrum_gauss",
    "Euphonic.Broaden.C142_different_widths"
   ],
   "note": "Exact real arithmetic; scipy.stats.norm.pdf is taken to be the Gaussian density. For different widths the fitted mixing polynomial is a parameter assumed to lie in [0, 1] between two kernels (scipy.optimize.nnls and numpy.polyfit are not modelled). Sums over bins are compared with integrals through Poisson summation (Gaussian) and the partial fractions of the cotangent (Lorentzian)."
  },
  {
   "property": "C143",
   "status": "proved",
   "theorems": [
    "Euphonic.Degenerate.C143_structure_factor",
    "Euphonic.Degenerate.C143_sqw",
    "Euphonic.Degenerate.C143_debye_waller",
    "Euphonic.Degenerate.C143_pdos",
    "Euphonic.Degenerate.C143_any_diagonalisation",
    "Euphonic.Degenerate.C143_single_modes_differ"
   ],
   "note": "Mixed is the specification; the sums over modes are unchanged because every factor that depends on the mode is a function of its frequency. C143_any_diagonalisation derives Mixed from two functions that meet the contract of numpy.linalg.eigh. C143_single_modes_differ shows a pair of choices with different single-mode structure factors."
  },
  {
   "property": "C144",
   "status": "proved",
   "theorems": [
    "Euphonic.Response.C144_masses",
    "Euphonic.Response.C144_heavier",
    "Euphonic.Response.C144_masses_scaled",
    "Euphonic.Response.C144_signs",
    "Euphonic.Response.C144_scaled",
    "Euphonic.Response.C144_stiffer",
    "Euphonic.Response.C144_force_constants_scaled",
    "Euphonic.Response.C144_force_constants_added"
   ],
   "note": "Ostrowski's theorem and monotonicity of eigenvalues are proved in Lemmas/EigenOrder; corrections enter as arbitrary Hermitian matrices that do not depend on the masses, as in the code, where they are added before the mass weighting."
  },
  {
   "property": "C145",
   "status": "proved",
   "theorems": [
    "Euphonic.Springs.C145_no_imaginary_modes",
    "Euphonic.Springs.C145_springs_added"
   ],
   "note": "IsSprings is the specification. The mean of the phases of the nearest images has modulus at most one, and exactly one for an atom and itself; from this the quadratic form is bounded below by that of the sums of the rows."
  },
  {
   "property": "C146",
   "status": "proved",
   "theorems": [
    "Euphonic.Opposite.C146_conjugate_lengths",
    "Euphonic.Opposite.C146_real_lengths",
    "Euphonic.Opposite.C146_debye_waller",
    "Euphonic.Opposite.C146_any_diagonalisation",
    "Euphonic.Opposite.C146_sqw",
    "Euphonic.Opposite.C146_absorbing_differ"
   ],
   "note": "C146_sqw covers force constants without corrections or with the dipole correction, in reduced supercells; C146_any_diagonalisation covers every Hermitian matrix with A(-q) = conj A(q)."
  },
  {
   "property": "C147",
   "status": "partial",
   "theorems": [
    "Euphonic.GradWarn.C147_values",
    "Euphonic.GradWarn.C147_warns",
    "Euphonic.GradWarn.C147_text",
    "Euphonic.GradWarn.C147_no_loss_partial",
    "Euphonic.GradWarn.C147_negative_lost",
    "Euphonic.GradWarn.C147_empty",
    "Euphonic.GradWarn.C147_empty_error",
    "Euphonic.GradWarn.C147_hermitian"
   ],
   "note": "The exact condition and text of the warning are proved. That nothing is lost without a warning holds for upward deviations only (C147_no_loss_partial); large negative imaginary parts are dropped silently (C147_negative_lost)."
  },
  {
   "property": "C148",
   "status": "proved",
   "theorems": [
    "Euphonic.Reorder.C148_where",
    "Euphonic.Reorder.C148_carried_over",
    "Euphonic.Reorder.C148_phases"
   ],
   "note": "Model/ReorderPath.lean: calc_reorder with its index arrays and the whole of reorder_frequencies; C148_where characterises the q-points whose modes are matched for every path, C148_carried_over what happens at the others, C148_phases that phases of modulus one do not matter."
  },
  {
   "property": "C149",
   "status": "partial",
   "theorems": [
    "Euphonic.Reorder.C149_idempotent_partial",
    "Euphonic.Reorder.C149_ties"
   ],
   "note": "Proved if overlaps are positive and all different or single out a correspondence (C149_idempotent_partial). Violated for equal overlaps of orthonormal eigenvectors (C149_ties)."
  },
  {
   "property": "C150",
   "status": "partial",
   "theorems": [
    "Euphonic.Corners.C150_corner_partial",
    "Euphonic.Corners.C150_right_angle",
    "Euphonic.Corners.C150_fine_path",
    "Euphonic.Corners.C150_elbow"
   ],
   "note": "Proved for bends with |u||v|(1-|cos|) > 5e-6 (C150_corner_partial). Violated for densely sampled paths: C150_fine_path for all paths with short steps, C150_elbow gives the exact number of steps (223) beyond which the corner of a path gamma-(1/2,0,0)-(1/2,1/2,0) loses its label."
  },
  {
   "property": "C151",
   "status": "proved",
   "theorems": [
    "Euphonic.Dipole.C151_balance",
    "Euphonic.Dipole.C151_same_cells",
    "Euphonic.Dipole.C151_same_gvecs",
    "Euphonic.Dipole.C151_dipole",
    "Euphonic.Dipole.C151_splitting"
   ],
   "note": "Exact homogeneity of the truncated sums, through the scaling of the balance parameter (C151_balance), the cells and reciprocal lattice vectors used (C151_same_cells, C151_same_gvecs) and every term; erfc is an arbitrary function. The determinant of the dielectric tensor is positive."
  },
  {
   "property": "C152",
   "status": "partial",
   "theorems": [
    "Euphonic.Sampling.C152_random",
    "Euphonic.Sampling.C152_polar_grid_biased",
    "Euphonic.Sampling.C152_converges_partial",
    "Euphonic.Sampling.C152_golden",
    "Euphonic.Sampling.C152_golden_jitter",
    "Euphonic.Sampling.C152_improved",
    "Euphonic.Sampling.C152_projected_grid"
   ],
   "note": "The golden sampling, the projected grid and the improved polar sampling converge, with a bound on the error and for any jitter (C152_golden, C152_golden_jitter, C152_projected_grid, C152_improved, C152_converges_partial); random points converge almost surely (C152_random). Missing: the polar grid, for which the property is false (C152_polar_grid_biased: the mean of z^2 is 1/2 however fine the grid, the average is 1/3; finding 82). Random numbers of the generator are assumed independent and uniform."
  },
  {
   "property": "C153",
   "status": "proved",
   "theorems": [
    "Euphonic.DosCli.C153_dos_polynomial",
    "Euphonic.DosCli.C153_dos",
    "Euphonic.Broaden.C153_fixed",
    "Euphonic.Broaden.C153_one_bin",
    "Euphonic.Broaden.C153_function",
    "Euphonic.Broaden.C153_map"
   ],
   "note": "Exact conditions (iff) for lines, maps and the two programs; the values given are in C69, C70, C91, C103, C142. Axes given by centres are covered by C81/C103; a non-positive lower limit is not covered. broaden of a single bin with a quantity raises IndexError (C153_one_bin)."
  },
  {
   "property": "C154",
   "status": "proved",
   "theorems": [
    "Euphonic.Dipole.C154_reciprocal",
    "Euphonic.Dipole.C154_cells",
    "Euphonic.Dipole.C154_once",
    "Euphonic.Dipole.C154_first_shell"
   ],
   "note": "Membership is characterised exactly; contributions are those of the code (the derivation of the Ewald sum itself is not proved, see C50)."
  },
  {
   "property": "C155",
   "status": "proved",
   "theorems": [
    "Euphonic.Lattice.C155_error",
    "Euphonic.Lattice.C155_converges",
    "Euphonic.Lattice.C155_waves",
    "Euphonic.Describe.C155_frequencies"
   ],
   "note": "C155_error, C155_converges: mean over mp_grid against iterated integrals over the zone. C155_waves: exact sums of exp(2 pi i q.R). C155_frequencies: applied to frequencies without dipole and sum rule corrections, reduced supercells."
  },
  {
   "property": "C156",
   "status": "proved",
   "theorems": [
    "Euphonic.Describe.C156_atom",
    "Euphonic.Describe.C156_total"
   ],
   "note": "C156_atom (each pair of directions of an atom, with eigenvectors) and C156_total, for frequencies without corrections, reduced supercells (Description.Ok)."
  },
  {
   "property": "C157",
   "status": "proved",
   "theorems": [
    "Euphonic.Dipole.C157_converge",
    "Euphonic.Dipole.C157_other",
    "Euphonic.Dipole.C157_same",
    "Euphonic.Dipole.C157_parameter",
    "Euphonic.Dipole.C157_left_out",
    "Euphonic.Dipole.C157_two_parameters"
   ],
   "note": "The form of the Ewald sums is proved with Poisson's formula for Gaussians in three dimensions, differentiated twice (from Mathlib's one-dimensional formula), and the derivatives of both series with respect to lambda. scipy's erfc is any function with the derivative of the complementary error function that vanishes at infinity (shown to exist). C157_left_out states exactly which terms make the difference between the code and the complete series."
  },
  {
   "property": "C158",
   "status": "proved",
   "theorems": [
    "Euphonic.Describe.C158_correction",
    "Euphonic.Describe.C158_periodic",
    "Euphonic.Describe.C158_code",
    "Euphonic.Describe.C158_frequencies",
    "Euphonic.Describe.C158_equivalent"
   ],
   "note": "The sums over all cells and all reciprocal vectors are reindexed by the change of the cell vectors; the parameter that divides them, which depends on the cell vectors, is irrelevant by C157. C158_code states exactly the difference between what the code calculates in two descriptions; C158_frequencies and C158_equivalent cover the cases of C131 and C132 that depend on the shells that are summed."
  },
  {
   "property": "C159",
   "status": "proved",
   "theorems": [
    "Euphonic.Dipole.C159_away",
    "Euphonic.Dipole.C159_gamma",
    "Euphonic.Dipole.C159_correction",
    "Euphonic.Dipole.C159_gap",
    "Euphonic.Dipole.C159_code",
    "Euphonic.Dipole.C159_frequencies"
   ],
   "note": "C159_away, C159_gamma and C159_code say which formula the code uses where; the limit is that of this formula, as q-points within 1e-15 of a gamma point are taken for it and the literal function is constant there. C159_correction and C159_frequencies are the limits, C159_gap shows the splitting is needed. Also fixes the absolute size of the long-range sums."
  },
  {
   "property": "C160",
   "status": "proved",
   "theorems": [
    "Euphonic.Folding.C160_interaction",
    "Euphonic.Folding.C160_correction",
    "Euphonic.Folding.C160_splitting",
    "Euphonic.Folding.C160_modes",
    "Euphonic.Folding.C160_frequencies"
   ],
   "note": "C160_interaction is the identity of the series between two ions: reciprocal vectors of the smaller cell are those of the larger one at which the phases of the copies agree, cells of the smaller lattice are cells and copies of the larger one. C160_correction adds charges and the self-interaction, C160_splitting the term at gamma points, C160_modes and C160_frequencies what follows for the phonons. What the code calculates differs by the terms left out of the sums (C157_left_out)."
  },
  {
   "property": "C161",
   "status": "proved",
   "theorems": [
    "Euphonic.DwCli.C161_debye_waller",
    "Euphonic.DwCli.C161_intensity",
    "Euphonic.DwCli.C161_powder"
   ],
   "note": "C161_debye_waller gives the exponents for any grid, C161_intensity and C161_powder what is plotted before broadening. The operations of the symmetrisation are those found by Spglib and each permutes the atoms (C75). Which wavevectors the modes are calculated at along the path and on the sphere is C162, C71 and C111; the arguments of the parser are C139."
  },
  {
   "property": "C162",
   "status": "partial",
   "theorems": [
    "Euphonic.BandPath.C162_numbers",
    "Euphonic.BandPath.C162_errors",
    "Euphonic.BandPath.C162_spacing",
    "Euphonic.BandPath.C162_angstrom_partial",
    "Euphonic.BandPath.C162_primitive_partial",
    "Euphonic.BandPath.C162_conventional",
    "Euphonic.BandPath.C162_unit_matters",
    "Euphonic.BandPath.C162_face_centred"
   ],
   "note": "The claim fails for crystals held in other units than angstrom (C162_unit_matters, exact behaviour in C162_spacing) and for cells other than the primitive cell of Seekpath (C162_conventional, C162_face_centred); C162_angstrom_partial and C162_primitive_partial are what holds. C162_numbers and C162_errors hold in general. Seekpath is a parameter with the contract that it does not depend on the scale."
  },
  {
   "property": "C163",
   "status": "proved",
   "theorems": [
    "Euphonic.PolarGrid.C163_debye_waller",
    "Euphonic.PolarGrid.C163_reduced",
    "Euphonic.PolarGrid.C163_dos",
    "Euphonic.PolarGrid.C163_atom_mean"
   ],
   "note": "Props/PolarGrid.lean: C136 and C137 redone for all families of matrices that are Hermitian, periodic, even and symmetric under the operations; the matrices of a polar crystal with complete long-range sums are one (corr_neg, C158). Reduced supercells, no sum rule correction, no splitting of gamma points, no broadening. The code's own sums differ by the terms they leave out (C157)."
  },
  {
   "property": "C164",
   "status": "partial",
   "theorems": [
    "Euphonic.PhonopyExact.C164_fourier_partial",
    "Euphonic.PhonopyExact.C164_normal_mode_partial",
    "Euphonic.PhonopyExact.C164_copies",
    "Euphonic.PhonopyExact.C164_all_atoms_partial",
    "Euphonic.PhonopyExact.C164_stable_partial"
   ],
   "note": "Composes the reader (C141), the reordering of force constants (C39, C40) and the interpolation (C129): C164_copies (what a successful read means for the cells of the atoms), C164_fourier_partial, C164_normal_mode_partial (rows of the representatives, no assumption on the force constants), C164_all_atoms_partial (all atoms, periodic force constants), C164_stable_partial. Partial as in C129: the supercell vectors have to be reduced and the atoms within one supercell of each other (ReducedSupercell); without that force constants are lost (C129_lost). Without dipole-dipole correction and sum rule. Rows and columns of the supercell matrix are read as the code does (C89)."
  },
  {
   "property": "C165",
   "status": "partial",
   "theorems": [
    "Euphonic.TotalExact.C165_exact_partial",
    "Euphonic.TotalExact.C165_code_partial",
    "Euphonic.TotalExact.C165_matrix_partial",
    "Euphonic.TotalExact.C165_normal_mode_partial",
    "Euphonic.TotalExact.C165_stable_partial"
   ],
   "note": "Composes C77 (which term is subtracted), C160 (a polar crystal in a larger cell) and C129 (exactness at commensurate wavevectors): C165_exact_partial (complete sums: corrected force constants plus correction are the Fourier sum of the total ones), C165_code_partial (the function's own output and cut sums, with the error bounded by what is left out, which C157_left_out gives), C165_matrix_partial, C165_normal_mode_partial, C165_stable_partial. Partial: supercell matrix symmetric and dielectric tensor in atomic units (otherwise C77 shows the wrong positions or tensor are used), supercell reduced as in C129, no sum rule."
  },
  {
   "property": "C166",
   "status": "partial",
   "theorems": [
    "Euphonic.PhonopyPolar.C166_returns",
    "Euphonic.PhonopyPolar.C166_all_atoms_partial",
    "Euphonic.PhonopyPolar.C166_stable_partial",
    "Euphonic.PhonopyPolar.C166_code_partial"
   ],
   "note": "Model of from_phonopy (fromPhonopy, argsOf) on top of readInterpolation (C141) and fromTotal (C77); composes C164 and C165. C166_returns (what is subtracted), C166_all_atoms_partial, C166_stable_partial (complete sums), C166_code_partial (the object's own force constants and cut sums, error bounded by what is left out, see C157_left_out). Partial: symmetric supercell matrix (C77, C89), reduced supercell (C129), cells of the supercell complete and the first one at the origin; data taken in atomic units."
  },
  {
   "property": "C167",
   "status": "proved",
   "theorems": [
    "Euphonic.SiteSymmetry.C167_equivalent_atoms",
    "Euphonic.SiteSymmetry.C167_cubic_site",
    "Euphonic.SiteSymmetry.C167_unchanged",
    "Euphonic.SiteSymmetry.C167_trace"
   ],
   "note": "Real arithmetic. spglib's operations are a parameter; that they are symmetries and a group is a hypothesis (up to lattice vectors, each operation once). The modes are arbitrary. The result of the code is the mean over the group of the rotated matrices; the group property makes it covariant. The cubic site is stated for any orthogonal frame. The sum of traces needs that the rotations keep lengths. Example: caesium chloride with the twelve rotations of a tetrahedron."
  },
  {
   "property": "C168",
   "status": "partial",
   "theorems": [
    "Euphonic.CastepExact.C168_read",
    "Euphonic.CastepExact.C168_fourier_partial",
    "Euphonic.CastepExact.C168_normal_mode_partial",
    "Euphonic.CastepExact.C168_stable_partial"
   ],
   "note": "For supercells with reduced vectors, for which no pair of atoms loses its image (C123, C129_lost: for others the code does lose force constants). Reading is C84, the sum over images C129; the positions moved into the cell are shown to lie within one supercell of each other, so nothing is assumed about them. Units cancel and are left out; dipole-dipole force constants are not added here (see C166 for Phonopy)."
  },
  {
   "property": "C169",
   "status": "proved",
   "theorems": [
    "Euphonic.Returned.C169_c",
    "Euphonic.Returned.C169_frequencies",
    "Euphonic.Returned.C169_gradients",
    "Euphonic.Returned.C169_complete"
   ],
   "note": "Model/Returned.lean on top of the driver (C45) and the C loop (C120). The numerical parts are parameters except for the C loop, which is the one of C120; exact arithmetic. Left out: conversion of units and the warning about imaginary parts of gradients (C147), which is given only when gradients are asked for."
  },
  {
   "property": "C170",
   "status": "partial",
   "theorems": [
    "Euphonic.AcousticSlope.C170_acoustic_partial",
    "Euphonic.AcousticSlope.C170_lowest_partial",
    "Euphonic.AcousticSlope.C170_sound_partial",
    "Euphonic.AcousticSlope.C170_lost"
   ],
   "note": "Props/AcousticSlope: C170_acoustic_partial (three modes, explicit constant), C170_sound_partial, C170_lowest_partial for supercells that are reduced in the sense of C123 (min-max principle with displacements of the whole crystal; the term of first order vanishes because both q and -q must be stable). C170_lost: in a supercell that is not reduced no constant is large enough (images are lost, finding of C123/C130). Not covered: the dipole-dipole correction, whose non-analytic part also keeps a finite slope only direction by direction."
  },
  {
   "property": "C171",
   "status": "partial",
   "theorems": [
    "Euphonic.SplittingRaise.C171_raises_partial",
    "Euphonic.SplittingRaise.C171_left_handed",
    "Euphonic.SplittingRaise.C171_interlace",
    "Euphonic.SplittingRaise.C171_transverse",
    "Euphonic.SplittingRaise.C171_total",
    "Euphonic.SplittingRaise.C171_strict_partial"
   ],
   "note": "Props/SplittingRaise: C171_raises_partial and C171_strict_partial for right handed cells; C171_left_handed: for left handed cells no frequency is raised (the code divides by the signed volume, finding of C95); C171_interlace, C171_transverse and C171_total hold for all cells."
  },
  {
   "property": "C172",
   "status": "partial",
   "theorems": [
    "Euphonic.EquivalentVectors.C172_structure_factor_partial",
    "Euphonic.EquivalentVectors.C172_sqw_map_partial"
   ],
   "note": "Proved for reduced supercells, without acoustic sum rule and without dipole correction (as C131): C172_structure_factor_partial (success, frequencies, and sums over modes of the structure factor times any function of the frequency) and C172_sqw_map_partial (equal maps; increasing bins, no mode of exactly zero frequency where a population factor is applied). The wavevector is moved by the transposed matrix of the operation in fractional coordinates. Values of single modes of equal frequency depend on the eigenvectors that have been found, so only their sums are compared."
  },
  {
   "property": "C173",
   "status": "proved",
   "theorems": [
    "Euphonic.PolarScatter.C173_description",
    "Euphonic.PolarScatter.C173_debye_waller",
    "Euphonic.PolarScatter.C173_equivalent",
    "Euphonic.PolarScatter.C173_sqw_map"
   ],
   "note": "Props/PolarScatter.lean: C131 and C172 redone for modes from any matrices that the change of description carries into each other (structure_factor_by, debye_waller_by); the matrices of a polar crystal with complete long-range sums are such (C158). Reduced supercells, no sum rule correction. A direction of approach must not be taken for a lattice vector in one of the two descriptions only (is_gamma has a tolerance). The code's own sums differ by the terms they leave out (C157)."
  },
  {
   "property": "C174",
   "status": "proved",
   "theorems": [
    "Euphonic.PolarFold.C174_structure_factor",
    "Euphonic.PolarFold.C174_debye_waller",
    "Euphonic.PolarFold.C174_dos"
   ],
   "note": "Props/PolarFold.lean: C138 redone for modes from any matrices that multiply waves of the smaller cell alike (Folds; structure_factor_folds, debye_waller_folds, dos_folds); the matrices of a polar crystal with complete long-range sums are such (C160, polar_folds). Reduced supercells, no sum rule correction, no broadening, Debye-Waller exponents not symmetrised. Modes of the smaller cell are taken with the splitting at its own gamma points only (atGamma). The code's own sums differ by the terms they leave out (C157)."
  },
  {
   "property": "C175",
   "status": "proved",
   "theorems": [
    "Euphonic.SumRuleKept.C175_realspace",
    "Euphonic.SumRuleKept.C175_frequencies",
    "Euphonic.SumRuleKept.C175_unchanged",
    "Euphonic.SumRuleKept.C175_reciprocal",
    "Euphonic.SumRuleKept.C175_reciprocal_kept"
   ],
   "note": "Props/SumRuleKept.lean: an eigenvector that moves the centre of mass by more than half of what a uniform displacement does has an eigenvalue bounded by the net force of uniform displacements (eval_bound, Cauchy-Schwarz), so C48_selection bounds what is subtracted. violation_zero_iff: V is zero exactly if the sum rule holds. C175_frequencies adds C133; it needs the acoustic modes found to be the same in all cells, otherwise the corrected force constants need not be symmetric. C175_reciprocal_kept is for reduced supercells without dipole correction, C175_reciprocal for any Hermitian matrix at gamma. With C175_unchanged the claims about results without correction (C131, C138, C172) hold with asr='realspace' for force constants that obey the sum rule."
  },
  {
   "property": "C176",
   "status": "partial",
   "theorems": [
    "Euphonic.GradientSymmetry.C176_cells_corrected_partial",
    "Euphonic.GradientSymmetry.C176_rotated_uncoupled_partial",
    "Euphonic.GradientSymmetry.Cells.C176_cells_differ",
    "Euphonic.GradientSymmetry.C176_periodic_corrected",
    "Euphonic.GradientSymmetry.C176_odd_corrected",
    "Euphonic.GradientSymmetry.C176_dipole",
    "Euphonic.GradientSymmetry.C176_rotated_corrected_partial",
    "Euphonic.GradientSymmetry.C176_magnitude_corrected_partial",
    "Euphonic.GradientSymmetry.C176_rotated_dipole_partial",
    "Euphonic.GradientSymmetry.C176_periodic",
    "Euphonic.GradientSymmetry.C176_odd_sum_partial",
    "Euphonic.GradientSymmetry.C176_odd_partial",
    "Euphonic.GradientSymmetry.C176_rotated_sum_partial",
    "Euphonic.GradientSymmetry.C176_rotated_partial",
    "Euphonic.GradientSymmetry.C176_magnitude_partial",
    "Euphonic.GradientSymmetry.C176_widths_partial"
   ],
   "note": "The periodicity is proved for all modes, the change of sign for all groups of modes of equal frequencies, both also with corrections for dipoles and (real ones) for the sum rule, by way of the projections on the modes. The rotation without corrections is obtained from the uniqueness of the derivative: by C126 what is reported is plus or minus the derivative of the frequency (of the sum of the frequencies for modes of equal frequencies), and the frequencies are equal by C131. With corrections it is obtained from traces of products of the projections and the gradient of the dynamical matrix: for descriptions that put the atoms in the same cells (for dipoles, for the rotations for which C131 shows that the same shells are summed), or if the corrections do not couple atoms that are moved differently. Otherwise the gradients that are reported, which lack the derivative of the correction (C126), depend on the cells the atoms are put in: C176_cells_corrected_partial gives the difference, and C176_cells_differ has a correction (not the one calculated for dipoles) for which it is not zero. The widths of mode_gradients_to_widths are compared for right handed cells (for left handed ones they are negative, C80). Missing: supercells that are not reduced."
  }
 ]
}