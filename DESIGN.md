# Formal model of Euphonic: design

## Approach

The Python and C sources in /repo are modelled, function by function, as Lean functions on lists, functions from
`Fin n`, integers, rationals or reals, `Option` and `Except`.  Every definition cites the file and lines it models
and says where it simplifies.

Layout (`lean/Verif/`):

* `Model/X.lean`: definitions that model code, nothing else (except small lemmas needed to define them);
* `Lemmas/X.lean`: auxiliary lemmas;
* `Props/X.lean`: the specifications, stated independently of the model's helpers, the property theorems
  `Cnn_...`, and beside them `example`s that show concrete cases meeting their hypotheses.

A theorem whose name ends in `_partial` proves less than the property of its number, because the code violates the
rest or because something is missing; the note in the table says what.  Where the code violates a property, the
negation is proved with a concrete witness.

General decisions:

* Floating-point numbers are modelled by an ordered field (often generic, `ℚ` in examples, `ℝ` where roots and
  exponentials occur).  Rounding, overflow and NaN are NOT modelled, except where a definition says so (zero
  frequencies in C28 and in the Bose factors of C24).  Tolerances used by the code are kept.  Where a division by zero gives
  infinity or NaN in numpy, the affected element is not described (for instance the structure factor of a mode of exactly zero
  frequency); theorems that would be about such elements have hypotheses that exclude them or say so.
* numpy arrays are lists, or functions from `Fin n` where sums are taken; broadcasting and index arithmetic are
  written out.
* Exceptions are values (`Except Err α`), with the Python class of the exception; messages are not modelled.
* pint: a unit is a dimension with a scale factor; contexts only where they matter (C16).
* Libraries (spglib, seekpath, scipy, LAPACK, numpy sorting and reductions, h5py, yaml) are modelled by their
  documentation, or are parameters with their contract as a hypothesis.
* argparse (C127, C128) is modelled from the source of Python 3.12 as far as the tools use it: option strings,
  abbreviations, attached values, `--`, negative numbers, groups of options that exclude each other, conflict handling.
* Mutable objects: a state is a value; where sharing matters (C78, C96) there is an explicit heap with references.
* Threads (C54): small-step interleaving semantics of the parallel loop of the C extension.

## Trusted base

* The kernel of Lean 4.33.0.  Every theorem listed in MANIFEST.json depends on no axioms other than `propext`,
  `Classical.choice` and `Quot.sound` (checked with `#print axioms`); no `sorry`, no `native_decide`, no
  `bv_decide`, no axioms of our own.
* That the hand-written model agrees with the cited lines; and the behaviour of the libraries as far as it is written
  into definitions (cited in their comments).
* The definitions of Mathlib that occur in statements (`List`, `Matrix`, `Complex`, `Real.exp`, ...).

## Properties

"Where" names the files under `lean/Verif/Props` that contain the theorems.

| id | title | where | status | remarks |
|----|-------|-------|--------|---------|
| C01 | Splitting a spectrum loses and duplicates nothing | Split | proved | all four classes; break points non-decreasing and in range |
| C02 | Tick labels follow their data point through a split | Split | proved | labels at non-negative positions; order kept if the labels were ordered |
| C03 | Automatic splitting breaks exactly at the large gaps | Split | proved | non-decreasing axis over an ordered field (no rounding) |
| C04 | Contradictory split arguments are refused | Split | proved |  |
| C05 | Only well-formed tick labels can be stored | Ticks | proved | tick label setter: accepted iff every element is an (integer, string) pair; refused assignment leaves the object unchanged |
| C06 | Bin edges and bin centres describe the same bins | Bins | partial | 1-D spectra, 1-D collections and 2-D spectra; missing: strict increase for a single centre (edges coincide) and 2-D collections, for which the claim is false (C06_collection2d_bin_edges_wrong) |
| C07 | Bin widths tile the axis | Bins | partial | edge axes and centre axes with at least two points; a single centre has width zero (C07_single_centre_zero_width shows the full claim is false) |
| C08 | Axes of the wrong length are refused | Bins | proved | axis length check of all classes |
| C09 | A collection behaves as a sequence of its spectra | Collection | proved | integers, lists and slices; slices whose stop equals the length are refused (finding C09_full_slice_refused); slices with a step are not modelled |
| C10 | Building a collection from spectra and reading it back is lossless | Collection | proved | both directions and refusals |
| C11 | sum() adds the intensities and keeps only common metadata | Group | proved | data for every collection; metadata for collections whose per-line keys are not common keys, with the counterexample for the others |
| C12 | group_by partitions the lines and conserves intensity | Group | proved |  |
| C13 | select returns exactly the matching lines | Group | proved | duplicates occur exactly when values are repeated (finding C13_select_repeated_value) |
| C14 | Adding collections concatenates them | Collection | proved |  |
| C15 | Scaling a spectrum scales intensities and nothing else | Units | partial | Spectrum1D, Spectrum1DCollection, Spectrum2D; for Spectrum2DCollection the claim is false (C15_collection2d_scales_axis) |
| C16 | Changing a unit changes only the representation | Units | partial | full for dimensions other than energy/length; for energies and lengths only while units of the same dimension are assigned, because reciprocal units are accepted and read wrongly (C16_reciprocal_unit_accepted_wrong); non-atomic failed assignment (C16_failed_assignment_changes_unit) |
| C17 | to_dict / from_dict is lossless | Objects | partial | all classes; missing because false: temperatures held in offset units (C17_celsius_fails) and force constants with a dielectric tensor but no Born charges (C17_dielectric_without_born) |
| C18 | JSON encoding is lossless, also for complex arrays | Json, JsonFile | partial | every storable dictionary, crystals, modes and 1-D spectra through files; missing because false: empty multi-dimensional arrays (C18_empty_array_shape_lost) and undeclared complex arrays |
| C19 | Constructors accept exactly the well-shaped inputs | Validate | proved | the whole of _check_constructor_inputs: accepted iff every value has an allowed type and matches an allowed shape |
| C20 | The DOS integrates to three modes-worth of the weight inside the bins | Dos | proved | Area of the unbroadened DOS is the weighted number of modes in range (all widths positive); 3N special case. |
| C21 | Each mode is counted in the bin that contains it | Dos | proved | Half-open bins [e_i, e_{i+1}); each in-range frequency is counted in exactly one bin; unsorted bins refused. |
| C22 | The DOS depends on weight ratios and not on q-point order | Dos | proved | Scaling of weights, permutation of q-points and modes, default weights; the adaptive method as well, with the broadening function as a parameter. |
| C23 | Partial DOS add up to the total DOS | Dos | proved | Sum over atoms of PDOS equals DOS for normalised eigenvectors; neutron weighting multiplies by the cross-section. Summing by species follows from C11/C12. |
| C24 | S(Q,w) conserves intensity up to the population factors | Sqw | proved | Bin content and row totals of calculate_sqw_map, 1-D average; repeated bin edges excluded (they give 0/0). |
| C25 | Detailed balance | Sqw | proved | Detailed balance over the reals with exp; frequency 0 excluded. |
| C26 | Conflicting temperatures are refused | Scatter, Sqw | proved | Temperature selection and conflict errors for S(Q,w) and structure factors with Debye-Waller. |
| C27 | Structure factors are non-negative and do not depend on eigenvector phase | Scatter | proved | The bound without equal exponents is by squared sum of moduli; C27_debye_waller_can_increase shows that the naive bound is false. |
| C28 | Debye-Waller exponents are symmetric positive semidefinite and independent of chunking | Scatter | partial | Symmetric positive semidefinite for frequencies that are not exactly zero and above the threshold; a zero frequency gives NaN (C28_zero_frequency_nan). Chunk size irrelevant. |
| C29 | Reordering modes is a permutation at every q-point | Reorder | partial | Permutation when at every calculated step all overlaps are positive or they single out a correspondence (which is then followed). False in general even for orthonormal eigenvectors: C29_orthonormal_counterexample. |
| C30 | Reciprocal lattice is dual to the lattice | Lattice | proved | Any field; 2*pi is a parameter. Duality, volume, involution and permutations. |
| C31 | Monkhorst-Pack grids are complete, centred and distinct | Lattice | proved | All grid sizes: complete, distinct, in the zone, closed under inversion, centred, equally spaced. |
| C32 | Grid specification honours the requested spacing | Lattice | proved | Over the reals with exact ceil; non-degenerate cell and positive spacing. |
| C33 | Species indices partition the atoms | Lattice | proved | Keys in order of first appearance, increasing index lists, partition. |
| C34 | Path distance is non-decreasing and starts at zero | Path | proved | Length (non-empty list), start, increments, monotonicity, equivalent points. |
| C35 | First, last and special q-points are labelled | Path | proved | Exactly the labelled indices, all lengths; seekpath's table is a parameter. |
| C36 | Label lookup ignores lattice translations and is sound | Path | proved | Translation invariance, soundness, completeness, precedence. Points slightly below a lattice vector are not recognised (C36_below_lattice_point_unlabelled). |
| C37 | Cell-origin enumeration is complete and duplicate-free | Origins | proved | Unit step. With step > 1 origins repeat (C37_step_repeats_origins). |
| C38 | Ewald shells partition the integer lattice | Origins | proved | Each shell is exactly the triples of that maximum norm; cubes are enumerated once. |
| C39 | Supercell relative indices are translations modulo the supercell | Supercell | proved | Exact arithmetic with threshold below 1//det/: first equivalent cell, success iff closed, permutation, chunk size irrelevant. |
| C40 | Converted force constants keep every pair interaction | ConvertFc | partial | Blocks move without loss to congruent cells; relative to the row atom only when uc_to_sc_atom_idx lists first copies. Otherwise violated: C40_other_copy_misplaced. |
| C41 | Inconsistent supercells and non-integer origins are refused | ConvertFc | proved | Refusals with their error classes; nearest integers otherwise. |
| C42 | Phases are exponentials of q.R | Phases | proved | Factored phases equal exp(2 pi i q.R) for all integer origins, also through the image origins; padding images contribute zero. |
| C43 | The dynamical matrix is Hermitian | DynMat | proved | The code's matrix equals the textbook lattice sum with equal image weights, and is Hermitian (with its gradient) for force constants symmetric under exchanging atoms and reversing the cell vector. |
| C44 | Frequencies are periodic in reciprocal space and even in q | DynMat | proved | Matrix and gradients periodic and conjugated under reversal; frequencies periodic and even for any eigensolver satisfying the Hermitian eigenproblem specification. The dipole part is in C50_even, C50_periodic. |
| C45 | Reducing q-points does not change the output | Driver, Reduce | proved | Reduction of repeated q-points: results are those of the full calculation, row by row; for the modelled dynamical matrix the periodicity used is itself proved. |
| C46 | Inserting gamma points conserves weights and order | Driver | proved | Splitting of gamma points: insertion, conserved total weight and directions, for all q-point lists. |
| C47 | Supercell images are exactly those inside the Wigner-Seitz cell | Images | proved | Progressive plane tests with early exit record exactly the images whose pair vector passes all plane tests, in order; weights sum to the force constant. |
| C48 | Acoustic sum rule correction sets the acoustic eigenvalues to (almost) zero and leaves others | Asr | partial | Real-space correction and acoustic mode selection proved in full. The reciprocal correction zeroes the acoustic frequencies only for real eigenvectors: the code builds e e^T without conjugation (C48_complex_eigenvectors gives the counterexample). |
| C49 | The LO-TO correction depends only on the direction | Loto | partial | Textbook formula for right-handed cells; wrong sign for left-handed ones (C95); correction dropped when the splitting direction is an integer vector (negation proved) |
| C50 | The dipole correction is Hermitian | Dipole, DipoleScale | partial | Hermitian, conjugated under reversal, periodic away from half-integers, packed indexing right. The sum over atoms at gamma is the antisymmetric part of the stored q=0 term (C50_acoustic_sum_partial), zero only when that term is symmetric. |
| C51 | Imaginary modes are reported as negative frequencies | DynMat | proved | Sign convention, strict order preservation, and equality of the C and Python formulas. |
| C52 | C and Python dynamical matrices agree | CDipole, CDynMat, CMatrix | partial | C arrays hold the conjugate of the Python dynamical matrix (all q, all layouts) and its gradient; the matrix read by LAPACK equals the Python matrix, frequencies and mode gradients agree. Partial: dipole part needs a dielectric tensor whose determinant det_array gets right and no half-integer component of q; near-gamma (not exact) points keep a stale imaginary part (C52_stale_imaginary). |
| C53 | C helper arithmetic agrees with linear algebra | CUtil | partial | cell_volume, cmult, cmult_conj, is_gamma proved; det_array has a wrong sign (exact condition and counterexample); C round differs from np.rint only at half-integers. |
| C54 | Results do not depend on the number of threads or on scheduling | Omp | partial | All schedules and thread counts when at most one thread looks up q-directions; races on shared i/qpos otherwise: schedules with wrong direction and out-of-range position exhibited. Outputs of different q-points are disjoint. |
| C55 | Results depend on current attribute values, not on call history | Options | partial | Results do not depend on call history as long as the data are not reassigned; C55_assignment_stale shows that caches survive assignment of new attributes. |
| C56 | Backend and thread-count selection | Options | proved | Backend choice and independence of the results from it, given backends that agree on one q-point (C52). |
| C57 | Dipole and splitting options are consistent | Options | proved | Options change only what they name. |
| C58 | Fortran records are read exactly or refused | CastepBin, CastepFile | proved | Truncated .castep_bin files are refused: for every file the reader accepts there is a length c such that every prefix shorter than c raises and everything behind byte c is ignored (C58_whole_file); records of integers, numbers and strings are read back exactly. C58_odd_length_cut: a typed record whose length is not a multiple of the item size can be read as a shorter one. |
| C59 | Split gamma points share the weight of their q-point | CastepPhonon | proved | Loop over parsed blocks and the loop over repeated q-points. C59_apart_not_merged: blocks of one q-point that do not follow each other are not recognised, their weights add up. |
| C60 | No q-point block is lost | CastepPhonon | proved | Rows in file order for every relation between announced and actual number of blocks, zero padding at the end. |
| C61 | Phonopy weights are normalised | Phonopy | proved | Sum one, ratios and positivity for every list of weights. |
| C62 | Phonopy eigenvector conversion only changes phases | Phonopy | proved | Phase structure, overlaps, norms, gamma; also eigenvectors of the matrix in Phonopy's phase convention become eigenvectors of the matrix in Euphonic's. |
| C63 | Phonopy file-format decisions | Phonopy | partial | Phonon files, precedence and BORN decisions proved. Missing: force constants files ending in .hd5/.h5 are refused (C63_fc_short_extensions_refused) and if only the factor is absent the BORN file replaces charges of the summary (C63_born_overridden). |
| C64 | Force-constant shapes are checked | Phonopy | proved | Exactly the two shapes; header forms. |
| C65 | CASTEP per-species data are expanded consistently | CastepCell | proved | Species expansion of _read_cell: per-species padded positions, masses and symbols become one entry per atom. |
| C66 | Spherical samplings return the requested number of unit vectors | Sampling | partial | Counts, unit norms and the unit square for every sampling, jitter as arbitrary numbers in [0,1). Violations: spherical_polar_grid raises IndexError for a single ring or a single point per ring (C66_polar_grid_narrow), golden_sphere(0) divides by zero, regular_square(offset=False, jitter=True) leaves the square. |
| C67 | Kinematic mask removes exactly the inaccessible bins | Kinematics | partial | Mask is exact relative to the momentum bounds of the computed cosine range; fails where the cosine range is wrong (C67_wrongly_masked). Exact arithmetic. |
| C68 | Cosine range is the exact range over the angle interval | Kinematics | partial | Maximum exact for every interval; minimum exact except for intervals reaching beyond 3 pi after translation (C68_minimum_missed: 270..630 degrees). |
| C69 | Variable-width broadening distributes every contribution with total weight one | BroadenVar | partial | Exact mixture formula for every call; shares sum to one for every width below the widest kernel. Violation: a width equal to the widest kernel keeps only polyval(coeffs, 1) of its weight (C69_widest_loses_weight). find_coeffs (least squares) is a parameter. |
| C70 | Broadening is linear and keeps the axis | Broaden, BroadenFn | proved | Linearity (1D, 2D, width functions), non-negativity and totals for quantity widths; scipy filters by their documentation, exact arithmetic; Lorentzian of width 0 (NaN) excluded. Findings: descending axes are not broadened (C70_descending_ignored), single bins raise. |
| C71 | Band-path ticks, breaks and inserted gamma points are consistent | Cli | proved | Tick labels, break points and gamma insertion for all label lists |
| C72 | Automatic energy bins cover all modes | Cli | partial | Energy bins cover all frequencies when the largest frequency is positive; C72_no_positive_frequency shows the violation for spectra without a positive frequency |
| C73 | Weighting and grouping options | CliPdos | partial | Weighting names and arrangement of the lines for all groupings; C73_one_species_fails shows that a crystal of one species raises KeyError; species that are absent are silently dropped when another one is present |
| C74 | Powder sampling point counts respect the limits | Cli, Sampling | partial | Limits, monotony and rounding up of the density, least side of the grid; unit vectors and counts need at least 6 points for the improved polar grid and 3 for the polar grid |
| C75 | Symmetry equivalence classes partition atoms | Symmetry | proved | Outcome (RuntimeError exactly when some image of an atom has not exactly one matching atom of its species), table, identity, species, success for symmetric crystals and bijectivity |
| C76 | Cartesian/fractional q conversion is inverse | Powder | proved | Exact inverse of the fractional/Cartesian conversion and constant modulus of the sphere q-points |
| C77 | Total-to-short-range force constants use true supercell coordinates | TotalFc | partial | The reconstruction is exact for diagonal/symmetric supercell matrices and consistent units; positions are right iff the supercell matrix is symmetric (negation proved), and a dielectric given in another unit is not converted (negation proved) |
| C78 | Copies and pieces are independent of the original | Heap | partial | Copies: full independence in both directions under any alternation of mutating programs, and equality. Items of a collection likewise (plain metadata). Pieces of split own their data and ticks but share the metadata dictionary with the original (negation proved) |
| C79 | File loading dispatch is by suffix and content | Cli | proved | Dispatch for every suffix and content; readers of the individual formats are parameters |
| C80 | Mode widths are non-negative, homogeneous, and independent of vector/scalar form | Powder | partial | Non-negative widths for right-handed cells and each accepted shape; a left-handed cell gives negative widths (negation proved) |
| C81 | Regular-bin assertion accepts exactly regular bins | Bins | proved | criterion, and the finding that evenly spaced centres are refused |
| C82 | DOS maps are DOS rows | Dos | proved | Each row is the DOS of its q-point; weighted mean of rows is calculate_dos. |
| C83 | Structure factors keep the q-point weights | Scatter | partial | Violated: weights are reset to equal ones (C83_weights_lost); kept only when they were equal already. |
| C84 | A castep_bin file is read back exactly as written | CastepWrite | proved | Whole-file round trip through a specification of the castep_bin layout. Numbers are assumed to be inverted by the decoding of eight bytes (struct); version parsing is a parameter. |
| C85 | FORCE_CONSTANTS files are read back exactly; cut files are refused | Phonopy | proved | Lines as lists of numbers; text to number conversion not modelled. |
| C86 | BORN files are read back exactly | Phonopy | proved | Lines as lists of numbers. |
| C87 | Denominators of Phonopy force constant units are divided by as a whole | Phonopy | proved | Finding: a unit without denominator gets an unclosed bracket (C87_no_denominator). |
| C88 | Phonopy supercell atoms are mapped to the primitive atoms the file names | Phonopy | proved | Finding: without reduced_to the indices are off by one (C88_absent_off_by_one). |
| C89 | Phonopy supercell matrix and positions describe the supercell of the file | Phonopy | partial | Proved when the supercell is S U; with Phonopy's convention (supercell S^T U) this holds for symmetric S only and C89_transposed shows it fails otherwise. |
| C90 | Calculated modes solve the equations of motion | DynMat | proved | Over the exact dynamical matrix assembled by the model, eigenvectors from any function meeting the specification of eigh. |
| C91 | Broadening kernels have the requested width | Broaden, BroadenFn | partial | Gaussian exact; width functions exact for both shapes. Violation: Lorentzian with a quantity is n/(n-1) times too wide on n bins (C91_lorentz_actual_width, C91_lorentz_too_wide). |
| C92 | A smaller permitted interpolation error gives closer kernels | BroadenVar | partial | Gaussian: both fits. Violation: for Lorentzian kernels the spacing is constant (C92_lorentz_error_ignored). |
| C93 | The lower limit of a width function bounds the width it returns | BroadenFn | partial | Holds for std and for Lorentzian. Violation: default convention compares the limit with sigma (C93_limit_on_sigma). |
| C94 | The |q| bins of a powder map cover the requested range with equal bins no wider than asked for | Cli | proved | Edges of the /q/ bins for all ranges and spacings |
| C95 | Corrections do not depend on the order of the cell vectors | Handed | partial | Cyclic orders proved; an exchange of two vectors flips the sign of both corrections because the volume is signed (negation proved) |
| C96 | Scaling a spectrum in place affects only that spectrum | Heap | partial | Proved for __mul__, and for __imul__ between objects that share nothing; data read or assigned in the internal unit are shared, so in-place scaling shows elsewhere (negations proved; the sharing relies on pint returning the same array when units agree) |
| C97 | A .phonon file is read completely or not at all | CastepText | partial | Every file of the layout is read back exactly (C97_blocks, C97_read); with eigenvectors a file cut inside a block is refused (C97_cut_inside) and only cuts at a block boundary are accepted (C97_cut_partial). Missing, because false: cuts at a block boundary are accepted with rows of zeros (C97_boundary_accepted), without eigenvectors a cut inside the last eigenvectors is accepted (C97_cut_eigenvectors_accepted), and a header without 'Unit cell vectors' is searched for ever (C97_no_cell_never_ends). |
| C98 | A .phonon_dos file gives each species its own column | CastepDos | partial | Files with at least two bins are read exactly (C98_read_partial, C98_spectrum, C98_collection), incomplete gradients and tables that end early are refused (C98_complete_gradients, C98_short_table). Missing, because false: the heading of the table is ignored, columns are attributed by order of first atoms (C98_heading_ignored); a file that ends inside its table is accepted (C98_cut_table_accepted); one bin is refused (C98_one_bin). |
| C99 | Reference data are returned complete | RefData | partial | Whole numbers in a table are dropped (C99_whole_numbers_dropped; shipped data: Sm, Th, Xe, Yb) and the layout given in the docstring is refused (C99_documented_layout_refused); everything else is proved. |
| C100 | Neutron-weighted PDOS uses the cross-section of each atom's species | RefData | partial | Proved for all tables except that a species whose cross-section is written as a whole number is refused (C100_whole_number_refused). |
| C101 | euphonic-dos uses every given width exactly once | DosCli | partial | Everything proved except that --adaptive-scale 0 is ignored (C101_scale_zero_ignored). |
| C102 | The instrumental width of euphonic-dos is a full width at half maximum | DosCli | partial | Holds without --adaptive for Gaussians as far as the kernel reaches; with --adaptive the width is used as a standard deviation, 2.355 times too wide (C102_adaptive_too_wide). Lorentzians: see C91. |
| C103 | Broadening a map broadens its cuts, one axis independently of the other | BroadenMap | partial | Cuts on axes accepted by Spectrum1D.broaden; axis independence and order for all nine combinations of widths (widths of zero and bins of zero width excluded). Violations: an axis of bin centres is not refused and the peaks become twice as wide (C103_centres_too_wide); without a width that is used the object itself is returned (C103_same_object). |
| C104 | Broadening a collection broadens each of its spectra | BroadenMap | proved | Values only: the metadata of the collection are those of C05-C07. An empty collection behaves differently for the two kinds of width (C104_empty). |
| C105 | The formats of Phonopy phonon files agree | PhonopyModes | proved | All three layouts, for all sizes with at least one atom and one q-point. Files are the nested lists and arrays returned by yaml and h5py; reading the summary itself is a parameter here. |
| C106 | Lines are drawn completely and broken only at equal x | Plot | proved | Model of the calls to Matplotlib; for spectra of points and of bins (where the line breaks behind bins of no width). |
| C107 | Subplots share scales | Plot | partial | Range of colours only for maps in one unit (C107_scale_units_mixed shows the failure otherwise); widths only if the first subplot has a positive extent. |
| C108 | A Brille interpolator reproduces the force constants at the points of its grid | Brille | proved | Brille (grid generation, interpolation) and the Fourier interpolation are parameters; exactness at grid points is the hypothesis on Brille. C108_argument_changed shows a side effect: the caller's interpolation_kwargs dictionary is overwritten. |
| C109 | euphonic-dispersion draws the whole band structure | DispCli | partial | Model/DispCli.lean, Props/DispCli.lean: files (drawn if and only if every stretch between gaps has a labelled q-point; always with at most one gap) and force constants (always). The claim is false for files with a stretch between two gaps without labelled q-point (C109_stretch_without_label, finding 49). Reading, Seekpath, modes and reordering are parameters. |
| C110 | euphonic-intensity-map draws the whole map | IntensityCli | partial | Everything but two things the code does not do: paths with a stretch without labelled points cannot be drawn (C110_stretch_without_label), and of the coefficients of --energy-broadening all but the first are ignored (C110_coefficients_ignored). Structure factor and Debye-Waller factor are a parameter. |
| C111 | euphonic-powder-map draws the average over spheres | PowderCli | partial | The whole chain from force constants to the image, and that it is drawn for all widths. Missing: angle ranges both limits of which are right angles (C67); --pdos fails for crystals with one species (C111_single_species). |
| C112 | euphonic-optimise-dipole-parameter returns the fastest value | Tools | partial | Proved: values tried, calls timed, first minimum with its own times, all multiples of the step up to the maximum, errors. Code violates the claim: a value up to a hundredth of a step above the maximum can be tried (C112_above_maximum). |
| C113 | euphonic-show-sampling shows points of the sampling chosen | Tools | proved | Number, dimension and place of all points for every scheme; errors. Built on the samplings of C66. |
| C114 | euphonic-brille-convergence compares like with like | Tools | proved | All panels and residuals, success, errors. Phonon calculations, Brille and the broadening are parameters. The function's own defaults (a number for brille_npts, no n_threads) always raise an error: C114_refused. |
| C115 | Labels of the q-axis without known symmetry spell the coordinates | Labels | proved | Rolling of coordinates mislabels points where the lattice has no cyclic symmetry (C115_rolled_wrong, finding 55); seekpath's own tables are a parameter. |
| C116 | The sum of two spectra | TextFile | partial | Violated: compatible but different units are refused (C116_other_unit) and one bin is broadcast over two points (C116_one_bin). The sum is proved for equal units and equal numbers of values. |
| C117 | Text files of spectra contain all data in order | TextFile | proved | json.dumps, the version and the formatting of numbers are parameters; formats must not write spaces, hashes or line breaks. |
| C118 | Any memory layout of the arrays gives the same numbers to the C extension | Strided | partial | Holds for arguments and attributes given as doubles where C takes doubles and integers where C takes integers. Violated: integer arrays where C takes doubles become int32 and C reads beyond their end (C118_integers_overrun); crystal.atom_r is looked for on the force constants instead of the crystal and is passed to C in whatever order it has (C118_atom_r_wrong). |
| C119 | The C extension stays within its arrays | CAddr, CWork | partial | Holds if no array has 2^31 elements or more. Violated for eigenvectors of 2^31 doubles (16 GiB) or more, e.g. 100 atoms and 12000 q-points: the position of the matrix of a q-point is computed in 32-bit integers and overflows (C119_overflow). LAPACK's work space: the diagonalisation stays within what is allocated (C119_workspace_partial), but the query for the sizes writes 16 bytes to a variable of 8 (C119_query_overrun). That the position of a split q-point is found and not changed by another thread is C54. |
| C120 | Results of the C extension do not depend on which q-points share a thread | CLoop | proved | The loop over the q-points of one thread with its three buffers, in the flat memory layout of the C code; hypotheses: dipole data for the same number of atoms; splitting only with dipole corrections (as in Python). |
| C121 | Failed diagonalisation is reported | CLoop | partial | Where LAPACK succeeds. Violated otherwise: the return value is ignored in C and the failure only printed (C121_failure_not_raised). |
| C122 | The C extension keeps reference counts and reports what is missing | CRefs | partial | Completed calls restore all reference counts except that of n_atoms (C122_n_atoms_leaked); failing calls leak (C122_failure_leaks); missing n_atoms or lambda is undefined behaviour, everything else raises (C122_missing). |
| C123 | Every force constant is used, with its nearest images | Reduced | partial | Proved for supercells whose vectors are reduced (no combination of the vectors with coefficients -1, 0, 1 that contains a vector is shorter than it), in exact real arithmetic: the images found are nearest among all lattice translations, each pair has one, and the dynamical matrix at q = 0 is the plain sum and Hermitian without further conditions. For other supercells the claim is false: C123_lost, C123_not_nearest. |
| C124 | The C extension gives the same results as Python | CBackend, CBackendGrad | partial | Exact real arithmetic; LAPACK is a function of the Hermitian matrix it is given and does not fail. Not covered because the two differ there: with dipole corrections, coordinates that are exactly a half (C53_round_half) and dielectric constants for which the C determinant is wrong (C53_det_wrong); with splitting and reduce_qpts=False, gamma points that are not exactly lattice vectors (C52_stale_imaginary); races between threads (C54_race_wrong_direction). For gradients C124_gradients_partial asks only for Hermitian dynamical matrices and a cell volume that is not zero (C123_hermitian_partial). |
| C125 | Plot options take effect over style sheets | Style | partial | Options that are not zero or empty take effect over all style sheets; precedence of sheets and base style proved. Zero-valued options are ignored (C125_zero_ignored), and the list of base styles of the caller is changed (C125_base_changed). |
| C126 | Mode gradients are the derivatives of the frequencies | Gradient, GradientDipole, GradientGroup | partial | The gradient of the dynamical matrix is its derivative along every path (C126_matrix_gradient) and Hermitian; frequencies that are positive and simple have the reported gradient as derivative, without dipole correction. Imaginary modes: minus the reported one (C126_imaginary_sign, witness C126_imaginary_wrong); with dipole correction: the exact missing term (C126_dipole_missing), with a crystal for which it is not zero (C126_dipole_wrong). Modes of equal frequency: the sum of the reported gradients is the derivative of the sum of the frequencies (C126_degenerate_sum), single ones are not slopes (witness C126_degenerate_wrong). C126_good: symmetric force constants in a reduced supercell meet the hypotheses. |
| C127 | A command line that is accepted gives every tool the arguments that it reads | Args, ArgsTools | proved | argparse (parse_args with option strings, abbreviations, explicit values, '--', mutually exclusive groups, conflict handling) and all parsers of the tools are modelled; int() and float() are parameters. The attributes of each tool are listed in a table (ArgsTools) that was read off the code using them. A parser cannot be set up exactly for two combinations of features, which no tool uses (C127_build). |
| C128 | What a command line says is what the tool gets | ArgsRound | partial | Proved for command lines where the file name does not follow an option that can take it for a value (C128_roundtrip_partial; or after '--'). Otherwise the claim is false: the file name after --pdos, --energy-broadening, --style, ... is taken for one more value and the command line refused (C128_swallowed, C128_dos_wrong), and so is a negative number in exponent notation (C128_exponent). |
| C129 | At wavevectors that fit into the supercell the phonons are exact | Commensurate | partial | Proved for reduced supercells (ReducedSupercell: vectors reduced in the sense of C123, atoms within one supercell of each other, two shells of images): Fourier sum, normal modes of the periodic supercell, no negative frequencies for a stable supercell. C129_lost: in a skewed supercell the force constants of a pair of atoms are lost also at wavevectors that fit. |
| C130 | Three acoustic modes at the gamma point have zero frequency | Acoustic | partial | Proved for reduced supercells: three exact zeros for translation invariant force constants, also with the dipole correction if its q=0 tensor is symmetric (e.g. isotropic Born charges, q0Raw_isotropic; C50 for the general case); reciprocal correction for real eigenvectors (C48_complex_eigenvectors shows what happens otherwise); real-space correction if the acoustic modes found are the same in all cells. C130_lost: in a skewed cell translation invariant force constants give no acoustic modes. |
| C131 | Phonon results do not depend on how the crystal is described | Describe, DescribeDipole, DescribeLost, DescribeScatter | partial | Proved for reduced supercells (ReducedSupercell): without corrections for frequencies, eigenvectors, Debye-Waller factors, structure factors summed with any function of the frequency (which covers S(q,w)); with the dipole correction and the LO-TO splitting for frequencies (C131_polar_shells_partial, C131_polar_partial), if axes are exchanged or reversed, the origin moved, atoms reordered, or the crystal rotated such that the same shells of cells are summed; shells around each pair of atoms are cut, so moving single atoms by lattice vectors and general choices of the unit cell are not covered there (what the sums converge to is the same for all descriptions, C158). C131_reciprocal_lost: with asr='reciprocal' it is false, the correction found at the gamma point is added without phases, so an atom moved by a lattice vector changes the frequencies away from gamma. |
| C132 | Frequencies at symmetry-equivalent wavevectors are equal | Describe, DescribeDipole | partial | Proved for reduced supercells (ReducedSupercell), as the case of C131 where both descriptions are the same: without corrections for all operations, with dipole correction and LO-TO splitting (C132_polar_partial) for proper operations that exchange or reverse axes. For the complete sums it holds for all operations (C158_equivalent). |
| C133 | Small changes of force constants or wavevectors give small changes of frequencies | Stability | proved | Weyl's inequality for matrices that an eigensolver meeting IsEigh diagonalises; correction terms are arbitrary Hermitian matrices, the same on both sides. |
| C134 | Populations and Debye-Waller exponents grow with temperature and have the right limits | Temperature | proved | Limits with the real exponential and hyperbolic tangent; exponents with any symmetry operations except for the classical limit. |
| C135 | Sum rule: the first moment of S(Q,w) is the recoil energy of the free atoms | SumRule | proved | Structure factors as calculated, with or without Debye-Waller object; the map through calculateSqwMap; modes calculated from force constants meet the hypothesis of orthonormal eigenvectors. |
| C136 | Debye-Waller exponents from symmetry-reduced wavevectors are those of the full set | DebyeGrid | partial | Model/DebyeSym.lean (rotations in Cartesian coordinates, table of equivalent atoms), Props/DebyeGrid.lean: reduced sets in general (C136_reduced_partial), orbits of a group (C136_irreducible_partial), symmetric sets (C136_symmetric_set_partial), nothing raised (C136_returns). Proved for reduced supercells (ReducedSupercell) and without LO-TO and sum rule corrections; for polar crystals see C163. spglib is a parameter; its operations are assumed to be exact symmetries. |
| C137 | Densities of states from symmetry-reduced wavevectors are those of the full set | DosGrid | partial | Holds for the total density of states, for each species and for any set of atoms the operations only exchange; violated for single atoms (C137_atom_lost). Reduced supercells, no acoustic sum rule, no broadening; for polar crystals see C163. |
| C138 | Results do not depend on the number of primitive cells in the chosen unit cell (band folding) | Folding | partial | Supercells that are reduced (as in C131), no acoustic sum rule correction, no broadening, no symmetrisation of the Debye-Waller exponents; dipole terms are covered by C160 (modes, frequencies) and C174 (structure factors, Debye-Waller exponents, densities of states), asr='realspace' by C175_unchanged for force constants that obey the sum rule. Single modes (C138_mode_partial), frequencies with multiplicities, densities of states, species, single atoms, Debye-Waller exponents and structure factors are proved; Multiple.Relates.exists_folded shows that the wavevectors that are folded onto each other always exist in the right number (characters of the quotient of the lattices). |
| C139 | Command lines mean what they say | ArgsMeaning | proved | argparse is modelled (see C127), int() and float() are parameters. C139_meaning: acceptance and values for any sound parser, with every way of writing options. C139_dos, _dispersion, _intensity, _powder, _dipole, _brille, _sampling: each tool has exactly the listed options and the documented defaults. C139_unknown: unknown options are refused. |
| C140 | Averages over a sphere with default bins and temperatures | PowderSample | proved | Modes at a q-point, structure factors and the calculation of Debye-Waller exponents are parameters (C01-C18, C42, C44). Rounding is not modelled: with floating point numbers the highest default edge is 1.05 times the highest energy up to rounding. A structure factor with all default edges zero, where numpy divides zero by zero, is not covered. |
| C141 | Force constants imported from Phonopy | PhonopyFc | partial | Everything but the positions is proved for all contents of the files. The claim on positions is proved when the coordinates of the primitive cell lie in the same cell (C141_positions_partial; exactly, for any coordinates, with those of the file instead of those of the imported crystal: C141_blocks) and false otherwise (C141_shifted): the crystal is normalised to [0, 1), the force constants are converted with the coordinates as written. YAML, HDF5 and pint are not modelled: unit values are parameters. |
| C142 | How much intensity broadening keeps | KernelArea | proved | Exact real arithmetic; scipy.stats.norm.pdf is taken to be the Gaussian density. For different widths the fitted mixing polynomial is a parameter assumed to lie in [0, 1] between two kernels (scipy.optimize.nnls and numpy.polyfit are not modelled). Sums over bins are compared with integrals through Poisson summation (Gaussian) and the partial fractions of the cotangent (Lorentzian). |
| C143 | Results do not depend on the choice of eigenvectors for modes of equal frequency | Degenerate | proved | Mixed is the specification; the sums over modes are unchanged because every factor that depends on the mode is a function of its frequency. C143_any_diagonalisation derives Mixed from two functions that meet the contract of numpy.linalg.eigh. C143_single_modes_differ shows a pair of choices with different single-mode structure factors. |
| C144 | How frequencies respond to masses and to the strength of force constants | Response | proved | Ostrowski's theorem and monotonicity of eigenvalues are proved in Lemmas/EigenOrder; corrections enter as arbitrary Hermitian matrices that do not depend on the masses, as in the code, where they are added before the mass weighting. |
| C145 | A crystal held together by springs has no imaginary frequencies | Springs | proved | IsSprings is the specification. The mean of the phases of the nearest images has modulus at most one, and exactly one for an atom and itself; from this the quadratic form is bounded below by that of the sums of the rows. |
| C146 | Scattering at opposite scattering vectors | Opposite | proved | C146_sqw covers force constants without corrections or with the dipole correction, in reduced supercells; C146_any_diagonalisation covers every Hermitian matrix with A(-q) = conj A(q). |
| C147 | Complex mode gradients are reported before they are cast | GradWarn | partial | The exact condition and text of the warning are proved. That nothing is lost without a warning holds for upward deviations only (C147_no_loss_partial); large negative imaginary parts are dropped silently (C147_negative_lost). |
| C148 | Where reordering matches modes, and that eigenvector phases do not matter | ReorderPath | proved | Model/ReorderPath.lean: calc_reorder with its index arrays and the whole of reorder_frequencies; C148_where characterises the q-points whose modes are matched for every path, C148_carried_over what happens at the others, C148_phases that phases of modulus one do not matter. |
| C149 | Reordering modes a second time changes nothing | ReorderTwice | partial | Proved if overlaps are positive and all different or single out a correspondence (C149_idempotent_partial). Violated for equal overlaps of orthonormal eigenvectors (C149_ties). |
| C150 | Corners of a path get tick labels | Corners | partial | Proved for bends with /u//v/(1-/cos/) > 5e-6 (C150_corner_partial). Violated for densely sampled paths: C150_fine_path for all paths with short steps, C150_elbow gives the exact number of steps (223) beyond which the corner of a path gamma-(1/2,0,0)-(1/2,1/2,0) loses its label. |
| C151 | Long-range corrections scale with lengths, charges and screening as Coulomb's law says | DipoleScale | proved | Exact homogeneity of the truncated sums, through the scaling of the balance parameter (C151_balance), the cells and reciprocal lattice vectors used (C151_same_cells, C151_same_gvecs) and every term; erfc is an arbitrary function. The determinant of the dielectric tensor is positive. |
| C152 | Averages over sphere samplings approach the average over the sphere | SphereConverge, SphereGolden, SphereImproved, SphereMean | partial | The golden sampling, the projected grid and the improved polar sampling converge, with a bound on the error and for any jitter (C152_golden, C152_golden_jitter, C152_projected_grid, C152_improved, C152_converges_partial); random points converge almost surely (C152_random). Missing: the polar grid, for which the property is false (C152_polar_grid_biased: the mean of z^2 is 1/2 however fine the grid, the average is 1/3; finding 82). Random numbers of the generator are assumed independent and uniform. |
| C153 | For which arguments broadening works | BroadenDos, BroadenOk | proved | Exact conditions (iff) for lines, maps and the two programs; the values given are in C69, C70, C91, C103, C142. Axes given by centres are covered by C81/C103; a non-positive lower limit is not covered. broaden of a single bin with a quantity raises IndexError (C153_one_bin). |
| C154 | Which cells and reciprocal vectors the long-range sums contain | DipoleCut | proved | Membership is characterised exactly; contributions are those of the code (the derivation of the Ewald sum itself is not proved, see C50). |
| C155 | Averages over Monkhorst-Pack grids approach the average over the Brillouin zone | MpMean, MpPhonons | proved | C155_error, C155_converges: mean over mp_grid against iterated integrals over the zone. C155_waves: exact sums of exp(2 pi i q.R). C155_frequencies: applied to frequencies without dipole and sum rule corrections, reduced supercells. |
| C156 | Sum rule: the mean squared frequency is set by the on-site force constants | MpPhonons | proved | C156_atom (each pair of directions of an atom, with eigenvectors) and C156_total, for frequencies without corrections, reduced supercells (Description.Ok). |
| C157 | dipole_parameter divides the long-range sum, it does not change what is summed | DipoleEwald | proved | The form of the Ewald sums is proved with Poisson's formula for Gaussians in three dimensions, differentiated twice (from Mathlib's one-dimensional formula), and the derivatives of both series with respect to lambda. scipy's erfc is any function with the derivative of the complementary error function that vanishes at infinity (shown to exist). C157_left_out states exactly which terms make the difference between the code and the complete series. |
| C158 | What the long-range sums converge to belongs to the crystal, not to its description | DescribeEwald | proved | The sums over all cells and all reciprocal vectors are reindexed by the change of the cell vectors; the parameter that divides them, which depends on the cell vectors, is irrelevant by C157. C158_code states exactly the difference between what the code calculates in two descriptions; C158_frequencies and C158_equivalent cover the cases of C131 and C132 that depend on the shells that are summed. |
| C159 | The splitting at gamma points is the limit of the long-range correction | SplittingLimit | proved | C159_away, C159_gamma and C159_code say which formula the code uses where; the limit is that of this formula, as q-points within 1e-15 of a gamma point are taken for it and the literal function is constant there. C159_correction and C159_frequencies are the limits, C159_gap shows the splitting is needed. Also fixes the absolute size of the long-range sums. |
| C160 | A polar crystal described in a larger cell has the modes of the smaller cell | FoldEwald | proved | C160_interaction is the identity of the series between two ions: reciprocal vectors of the smaller cell are those of the larger one at which the phases of the copies agree, cells of the smaller lattice are cells and copies of the larger one. C160_correction adds charges and the self-interaction, C160_splitting the term at gamma points, C160_modes and C160_frequencies what follows for the phonons. What the code calculates differs by the terms left out of the sums (C157_left_out). |
| C161 | The command line tools use the Debye-Waller factor of the grid and the temperature asked for | DwCli | proved | C161_debye_waller gives the exponents for any grid, C161_intensity and C161_powder what is plotted before broadening. The operations of the symmetrisation are those found by Spglib and each permutes the atoms (C75). Which wavevectors the modes are calculated at along the path and on the sphere is C162, C71 and C111; the arguments of the parser are C139. |
| C162 | Bands are calculated along the path through the high-symmetry points with the spacing asked for | BandPath | partial | The claim fails for crystals held in other units than angstrom (C162_unit_matters, exact behaviour in C162_spacing) and for cells other than the primitive cell of Seekpath (C162_conventional, C162_face_centred); C162_angstrom_partial and C162_primitive_partial are what holds. C162_numbers and C162_errors hold in general. Seekpath is a parameter with the contract that it does not depend on the scale. |
| C163 | Polar crystals: symmetry-reduced wavevectors give the Debye-Waller factors and densities of states of the full set | PolarGrid | proved | Props/PolarGrid.lean: C136 and C137 redone for all families of matrices that are Hermitian, periodic, even and symmetric under the operations; the matrices of a polar crystal with complete long-range sums are one (corr_neg, C158). Reduced supercells, no sum rule correction, no splitting of gamma points, no broadening. The code's own sums differ by the terms they leave out (C157). |
| C164 | From a Phonopy file to exact phonons | PhonopyExact | partial | Composes the reader (C141), the reordering of force constants (C39, C40) and the interpolation (C129): C164_copies (what a successful read means for the cells of the atoms), C164_fourier_partial, C164_normal_mode_partial (rows of the representatives, no assumption on the force constants), C164_all_atoms_partial (all atoms, periodic force constants), C164_stable_partial. Partial as in C129: the supercell vectors have to be reduced and the atoms within one supercell of each other (ReducedSupercell); without that force constants are lost (C129_lost). Without dipole-dipole correction and sum rule. Rows and columns of the supercell matrix are read as the code does (C89). |
| C165 | Total force constants survive the subtraction of the dipole term | TotalExact | partial | Composes C77 (which term is subtracted), C160 (a polar crystal in a larger cell) and C129 (exactness at commensurate wavevectors): C165_exact_partial (complete sums: corrected force constants plus correction are the Fourier sum of the total ones), C165_code_partial (the function's own output and cut sums, with the error bounded by what is left out, which C157_left_out gives), C165_matrix_partial, C165_normal_mode_partial, C165_stable_partial. Partial: supercell matrix symmetric and dielectric tensor in atomic units (otherwise C77 shows the wrong positions or tensor are used), supercell reduced as in C129, no sum rule. |
| C166 | From a Phonopy file of a polar crystal to exact phonons | PhonopyPolar | partial | Model of from_phonopy (fromPhonopy, argsOf) on top of readInterpolation (C141) and fromTotal (C77); composes C164 and C165. C166_returns (what is subtracted), C166_all_atoms_partial, C166_stable_partial (complete sums), C166_code_partial (the object's own force constants and cut sums, error bounded by what is left out, see C157_left_out). Partial: symmetric supercell matrix (C77, C89), reduced supercell (C129), cells of the supercell complete and the first one at the origin; data taken in atomic units. |
| C167 | Symmetrised Debye-Waller exponents have the symmetry of the crystal | SiteSymmetry | proved | Real arithmetic. spglib's operations are a parameter; that they are symmetries and a group is a hypothesis (up to lattice vectors, each operation once). The modes are arbitrary. The result of the code is the mean over the group of the rotated matrices; the group property makes it covariant. The cubic site is stated for any orthogonal frame. The sum of traces needs that the rotations keep lengths. Example: caesium chloride with the twelve rotations of a tetrahedron. |
| C168 | From a castep_bin file to exact phonons | CastepExact | partial | For supercells with reduced vectors, for which no pair of atoms loses its image (C123, C129_lost: for others the code does lose force constants). Reading is C84, the sum over images C129; the positions moved into the cell are shown to lie within one supercell of each other, so nothing is assumed about them. Units cancel and are left out; dipole-dipole force constants are not added here (see C166 for Phonopy). |
| C169 | Asking for less does not change the rest | Returned | proved | Model/Returned.lean on top of the driver (C45) and the C loop (C120). The numerical parts are parameters except for the C loop, which is the one of C120; exact arithmetic. Left out: conversion of units and the warning about imaginary parts of gradients (C147), which is given only when gradients are asked for. |
| C170 | Acoustic frequencies leave zero with a finite slope | AcousticSlope | partial | Props/AcousticSlope: C170_acoustic_partial (three modes, explicit constant), C170_sound_partial, C170_lowest_partial for supercells that are reduced in the sense of C123 (min-max principle with displacements of the whole crystal; the term of first order vanishes because both q and -q must be stable). C170_lost: in a supercell that is not reduced no constant is large enough (images are lost, finding of C123/C130). Not covered: the dipole-dipole correction, whose non-analytic part also keeps a finite slope only direction by direction. |
| C171 | The splitting at gamma points raises frequencies, one mode at a time | SplittingRaise | partial | Props/SplittingRaise: C171_raises_partial and C171_strict_partial for right handed cells; C171_left_handed: for left handed cells no frequency is raised (the code divides by the signed volume, finding of C95); C171_interlace, C171_transverse and C171_total hold for all cells. |
| C172 | Scattering at symmetry-equivalent wavevectors is the same | EquivalentVectors | partial | Proved for reduced supercells, without acoustic sum rule and without dipole correction (as C131): C172_structure_factor_partial (success, frequencies, and sums over modes of the structure factor times any function of the frequency) and C172_sqw_map_partial (equal maps; increasing bins, no mode of exactly zero frequency where a population factor is applied). The wavevector is moved by the transposed matrix of the operation in fractional coordinates. Values of single modes of equal frequency depend on the eigenvectors that have been found, so only their sums are compared. |
| C173 | Polar crystals: structure factors do not depend on the description and are the same at equivalent wavevectors | PolarScatter | proved | Props/PolarScatter.lean: C131 and C172 redone for modes from any matrices that the change of description carries into each other (structure_factor_by, debye_waller_by); the matrices of a polar crystal with complete long-range sums are such (C158). Reduced supercells, no sum rule correction. A direction of approach must not be taken for a lattice vector in one of the two descriptions only (is_gamma has a tolerance). The code's own sums differ by the terms they leave out (C157). |
| C174 | Polar crystals: scattering and densities of states do not depend on the number of primitive cells in the unit cell | PolarFold | proved | Props/PolarFold.lean: C138 redone for modes from any matrices that multiply waves of the smaller cell alike (Folds; structure_factor_folds, debye_waller_folds, dos_folds); the matrices of a polar crystal with complete long-range sums are such (C160, polar_folds). Reduced supercells, no sum rule correction, no broadening, Debye-Waller exponents not symmetrised. Modes of the smaller cell are taken with the splitting at its own gamma points only (atGamma). The code's own sums differ by the terms they leave out (C157). |
| C175 | Acoustic sum rule corrections are no larger than the violation of the sum rule | SumRuleKept | proved | Props/SumRuleKept.lean: an eigenvector that moves the centre of mass by more than half of what a uniform displacement does has an eigenvalue bounded by the net force of uniform displacements (eval_bound, Cauchy-Schwarz), so C48_selection bounds what is subtracted. violation_zero_iff: V is zero exactly if the sum rule holds. C175_frequencies adds C133; it needs the acoustic modes found to be the same in all cells, otherwise the corrected force constants need not be symmetric. C175_reciprocal_kept is for reduced supercells without dipole correction, C175_reciprocal for any Hermitian matrix at gamma. With C175_unchanged the claims about results without correction (C131, C138, C172) hold with asr='realspace' for force constants that obey the sum rule. |
| C176 | Mode gradients at equivalent wavevectors | GradientCells, GradientCorrected, GradientPolar, GradientSymmetry | partial | The periodicity is proved for all modes, the change of sign for all groups of modes of equal frequencies, both also with corrections for dipoles and (real ones) for the sum rule, by way of the projections on the modes. The rotation without corrections is obtained from the uniqueness of the derivative: by C126 what is reported is plus or minus the derivative of the frequency (of the sum of the frequencies for modes of equal frequencies), and the frequencies are equal by C131. With corrections it is obtained from traces of products of the projections and the gradient of the dynamical matrix: for descriptions that put the atoms in the same cells (for dipoles, for the rotations for which C131 shows that the same shells are summed), or if the corrections do not couple atoms that are moved differently. Otherwise the gradients that are reported, which lack the derivative of the correction (C126), depend on the cells the atoms are put in: C176_cells_corrected_partial gives the difference, and C176_cells_differ has a correction (not the one calculated for dipoles) for which it is not zero. The widths of mode_gradients_to_widths are compared for right handed cells (for left handed ones they are negative, C80). Missing: supercells that are not reduced. |

## Modules of the model

| module | subject | files in /repo cited |
|--------|---------|----------------------|
| `Model/Args` | Model of the command-line parsers (euphonic/cli/utils.py:142-165, 451-886 and `get_parser` of the tools) | euphonic/cli/brille_convergence.py, euphonic/cli/dispersion.py, euphonic/cli/dos.py, euphonic/cli/intensity_map.py, euphonic/cli/optimise_dipole_parameter.py, euphonic/cli/powder_map.py, euphonic/cli/show_sampling.py, euphonic/cli/utils.py |
| `Model/Asr` | Model of the acoustic sum rule corrections (euphonic/force_constants.py:1366-1500) | euphonic/force_constants.py |
| `Model/BandPath` | Model of the band path made for force constants (euphonic/cli/utils.py, euphonic/crystal.py) | euphonic/cli/dispersion.py, euphonic/cli/intensity_map.py, euphonic/cli/utils.py, euphonic/crystal.py |
| `Model/Base` | Python and numpy primitives shared by the models | euphonic/spectra.py |
| `Model/Bins` | Model of the bin helpers (euphonic/spectra.py:306-392, 1699-1785) | euphonic/spectra.py |
| `Model/Brille` | Model of `euphonic/brille.py` | euphonic/brille.py |
| `Model/Broaden` | Model of broadening | euphonic/broadening.py, euphonic/spectra.py |
| `Model/BroadenMap` | Model of `broaden` with width functions for spectra given by edges or centres, maps and collections | euphonic/broadening.py, euphonic/spectra.py |
| `Model/CAddr` | Model of the addresses used by the C extension (c/dyn_mat.c, c/_euphonic.c) | c/_euphonic.c, c/dyn_mat.c, c/util.c |
| `Model/CExt` | Model of the C extension, one q-point (c/dyn_mat.c, c/util.c) | c/_euphonic.c, c/dyn_mat.c, c/util.c |
| `Model/CLoop` | Model of the loop over q-points of one thread (c/_euphonic.c:203-286, c/dyn_mat.c:340-396) | c/_euphonic.c, c/dyn_mat.c, euphonic/force_constants.py |
| `Model/CRefs` | Model of the references held by the C extension (c/_euphonic.c:94-180, 286-304, c/py_util.c) | c/_euphonic.c, c/py_util.c |
| `Model/CWork` | Model of the memory given to LAPACK's `zheevd` (c/dyn_mat.c:340-386) | c/dyn_mat.c |
| `Model/CastepBin` | Model of the `.castep_bin` reader (euphonic/readers/castep.py:416-677) | euphonic/readers/castep.py |
| `Model/CastepDos` | Model of the reader of `.phonon_dos` files (euphonic/readers/castep.py:13-118, euphonic/spectra.py:550-575, 1272-1300) | euphonic/readers/castep.py, euphonic/spectra.py |
| `Model/CastepPhonon` | Model of the `.phonon` reader: q-point blocks and weights (euphonic/readers/castep.py:121-271) | euphonic/readers/castep.py |
| `Model/CastepText` | Model of the text of `.phonon` and `.phonon_dos` files (euphonic/readers/castep.py:13-413) | euphonic/readers/castep.py |
| `Model/Cli` | Model of the command-line helpers (euphonic/cli/utils.py, euphonic/cli/powder_map.py) | euphonic/cli/powder_map.py, euphonic/cli/utils.py |
| `Model/Collection` | Model of spectrum collections (euphonic/spectra.py:684-1105, 1108-1237) | euphonic/spectra.py |
| `Model/DebyeSym` | Model of the symmetrisation in `calculate_debye_waller` (euphonic/qpoint_phonon_modes.py:409-420) | euphonic/crystal.py, euphonic/qpoint_phonon_modes.py |
| `Model/Dict` | Model of dictionaries and JSON files | euphonic/io.py |
| `Model/Dipole` | Model of the long-range corrections (euphonic/force_constants.py:953-1319) | euphonic/force_constants.py |
| `Model/DispCli` | Model of the command `euphonic-dispersion` (euphonic/cli/dispersion.py) | euphonic/cli/dispersion.py, euphonic/cli/utils.py, euphonic/qpoint_frequencies.py, euphonic/spectra.py |
| `Model/Dos` | Model of energy binning: density of states and S(Q,w) maps | euphonic/qpoint_frequencies.py, euphonic/qpoint_phonon_modes.py, euphonic/structure_factor.py |
| `Model/DosCli` | Model of the command `euphonic-dos` (euphonic/cli/dos.py:19-136) | euphonic/cli/dos.py, euphonic/cli/utils.py |
| `Model/Driver` | Model of `_calculate_phonons_at_qpts` (euphonic/force_constants.py:429-736) | euphonic/force_constants.py |
| `Model/DwCli` | Model of the Debye-Waller factor of the command line tools (euphonic/cli/utils.py) | euphonic/cli/intensity_map.py, euphonic/cli/powder_map.py, euphonic/cli/utils.py, euphonic/force_constants.py, euphonic/powder.py, euphonic/qpoint_phonon_modes.py |
| `Model/DynMat` | Model of the dynamical matrix (euphonic/force_constants.py:547-598, 738-951) | euphonic/force_constants.py |
| `Model/GradWarn` | Model: casting mode gradients to real numbers | euphonic/force_constants.py |
| `Model/Heap` | Model of shared data: copies, pieces and items of spectra | euphonic/spectra.py |
| `Model/Images` | Model of the supercell images (euphonic/force_constants.py:576-612, 1569-1661) | euphonic/force_constants.py |
| `Model/IntensityCli` | Model of the command `euphonic-intensity-map` (euphonic/cli/intensity_map.py) | euphonic/cli/intensity_map.py, euphonic/cli/utils.py, euphonic/qpoint_frequencies.py, euphonic/spectra.py, euphonic/structure_factor.py |
| `Model/Kinematics` | Model of the kinematic constraints (euphonic/spectra.py:1971-2084) | euphonic/spectra.py |
| `Model/Labels` | Model of the tables of q-point labels (euphonic/util.py:560-609) and of the axis of a path | euphonic/qpoint_frequencies.py, euphonic/util.py |
| `Model/Lattice` | Model of lattices, grids, species and paths (euphonic/crystal.py, euphonic/util.py) | euphonic/crystal.py, euphonic/force_constants.py, euphonic/util.py |
| `Model/Objects` | Model of the data classes: constructors, `to_dict`, `from_dict` | euphonic/crystal.py, euphonic/debye_waller.py, euphonic/force_constants.py, euphonic/qpoint_frequencies.py, euphonic/qpoint_phonon_modes.py, euphonic/spectra.py, euphonic/structure_factor.py |
| `Model/Omp` | Model of the parallel loop over q-points (c/_euphonic.c:89, 203-286) | c/_euphonic.c |
| `Model/Phases` | Model of the phase factors (euphonic/force_constants.py:547-563, 1502-1567) | euphonic/force_constants.py |
| `Model/Phonopy` | Model of the Phonopy readers (euphonic/readers/phonopy.py) | euphonic/readers/phonopy.py |
| `Model/PhonopyFc` | Model of the import of force constants from Phonopy (euphonic/readers/phonopy.py:453-795) | euphonic/readers/phonopy.py, euphonic/util.py |
| `Model/PhonopyModes` | Model of `read_phonon_data` (euphonic/readers/phonopy.py:45-315) | euphonic/readers/phonopy.py |
| `Model/Plot` | Model of `euphonic/plot.py` | euphonic/plot.py |
| `Model/Powder` | Model of the powder sampling helpers and of mode widths | euphonic/powder.py, euphonic/util.py |
| `Model/PowderCli` | Model of the command `euphonic-powder-map` (euphonic/cli/powder_map.py) | euphonic/cli/powder_map.py, euphonic/cli/utils.py, euphonic/plot.py, euphonic/powder.py, euphonic/spectra.py |
| `Model/PowderSample` | Model of the averages over a sphere (euphonic/powder.py) | euphonic/powder.py, euphonic/qpoint_phonon_modes.py |
| `Model/RefData` | Model of reference data files (euphonic/util.py:170-261) and of the cross-sections taken from them | euphonic/qpoint_phonon_modes.py, euphonic/util.py |
| `Model/Reorder` | Model of `QpointPhononModes.reorder_frequencies` (euphonic/qpoint_phonon_modes.py:81-166) | euphonic/qpoint_phonon_modes.py |
| `Model/ReorderPath` | Model of `reorder_frequencies` with its choice of q-points (euphonic/qpoint_phonon_modes.py:81-166) | euphonic/qpoint_phonon_modes.py, euphonic/util.py |
| `Model/Returned` | Model of what is returned by `calculate_qpoint_phonon_modes` and `calculate_qpoint_frequencies` | c/_euphonic.c, euphonic/force_constants.py, euphonic/qpoint_frequencies.py, euphonic/qpoint_phonon_modes.py |
| `Model/Rint` |  | euphonic/force_constants.py, euphonic/util.py |
| `Model/Sampling` | Model of the sphere samplings (euphonic/sampling.py, euphonic/powder.py:352-392) | euphonic/powder.py, euphonic/sampling.py |
| `Model/Scatter` | Model of structure factors and Debye-Waller exponents | euphonic/crystal.py, euphonic/debye_waller.py, euphonic/qpoint_frequencies.py, euphonic/qpoint_phonon_modes.py, euphonic/structure_factor.py, euphonic/util.py |
| `Model/Split` | Model of `split` (euphonic/spectra.py:152-219, 471-481, 1195-1206, 1516-1526, 1902-1912) | euphonic/spectra.py |
| `Model/Strided` | Model of the memory of arrays given to the C extension | c/_euphonic.c, euphonic/force_constants.py, euphonic/validate.py |
| `Model/Style` | Model of the styles of plots made by the command-line tools (euphonic/cli/utils.py, euphonic/cli/*.py) | euphonic/cli/dispersion.py, euphonic/cli/dos.py, euphonic/cli/intensity_map.py, euphonic/cli/powder_map.py, euphonic/cli/utils.py |
| `Model/Supercell` | Model of supercell bookkeeping (euphonic/util.py:302-434, 666-725) | euphonic/util.py |
| `Model/Symmetry` | Model of `Crystal.get_symmetry_equivalent_atoms` (euphonic/crystal.py:202-277) | euphonic/crystal.py |
| `Model/TextFile` | Model of the sum of two spectra (euphonic/spectra.py:458-469) and of text files of spectra | euphonic/spectra.py |
| `Model/Ticks` |  | euphonic/spectra.py |
| `Model/Tools` | Model of the small command line tools: `euphonic-optimise-dipole-parameter`, `euphonic-show-sampling`, | euphonic/cli/brille_convergence.py, euphonic/cli/optimise_dipole_parameter.py, euphonic/cli/show_sampling.py, euphonic/cli/utils.py |
| `Model/TotalFc` | Model of `ForceConstants.from_total_fc_with_dipole` (euphonic/force_constants.py:1722-1802) | euphonic/force_constants.py |
| `Model/Units` | Model of quantities with units | euphonic/__init__.py, euphonic/crystal.py, euphonic/debye_waller.py, euphonic/force_constants.py, euphonic/qpoint_frequencies.py, euphonic/spectra.py, euphonic/structure_factor.py, euphonic/validate.py |
| `Model/Validate` | Model of the shared constructor check | euphonic/validate.py |

## Not modelled

Functions of the package no part of which is modelled (`_version.py` left out).  Abstract methods, overloads and
functions that only forward their arguments are in this list too.

* `euphonic/cli/brille_convergence.py`: `create_intensity_plot`, `add_intensity_legend`
* `euphonic/cli/powder_map.py`: `tqdm`
* `euphonic/cli/utils.py`: `matplotlib_save_or_show`
* `euphonic/crystal.py`: `Crystal.from_json_file`, `Crystal.from_cell_vectors`
* `euphonic/debye_waller.py`: `DebyeWaller.from_json_file`
* `euphonic/force_constants.py`: `ForceConstants.from_json_file`
* `euphonic/qpoint_frequencies.py`: `QpointFrequencies.from_json_file`, `QpointFrequencies.from_castep`, `QpointFrequencies.from_phonopy`
* `euphonic/qpoint_phonon_modes.py`: `QpointPhononModes.from_castep`, `QpointPhononModes.from_phonopy`
* `euphonic/readers/phonopy.py`: `ImportPhonopyReaderError.__init__`, `ImportPhonopyReaderError.__str__`, `_extract_force_constants_hdf5`
* `euphonic/spectra.py`: `Spectrum.to_dict`, `Spectrum.from_dict`, `Spectrum.to_json_file`, `Spectrum._split_by_indices`, `Spectrum1D.broaden`, `Spectrum1DCollection.from_dict`
* `euphonic/structure_factor.py`: `StructureFactor.from_castep`, `StructureFactor.from_phonopy`
* `euphonic/util.py`: `_deprecation_warn`

Also not modelled: rounding of floating-point numbers, the text of messages, warnings, plotting, progress bars,
conversion of text to numbers (`float`), the building of the package.

## Findings

Places where the code does not do what its documentation or a user would expect.  "proved" refers to a theorem
that states the negation with a witness.

1. `Spectrum2DCollection` inherits `Spectrum.__imul__` and so scales its y axis instead of its data
   (C15_collection2d_scales_axis); it also inherits the one-dimensional `get_bin_edges`
   (C06_collection2d_bin_edges_wrong), and its `z_data_unit` is not checked.
2. `Spectrum2DCollection.from_spectra` uses the raw internal data of all items but the first.
3. `_get_cos_range` looks at two turning points only (C68_minimum_missed, C67_wrongly_masked).
4. Lorentzian broadening by a quantity is n/(n-1) too wide (C91_lorentz_too_wide); with width 0 it gives NaN.
5. The Lorentzian fit of `_get_spacing` has a degenerate window, so the permitted error is ignored
   (C92_lorentz_error_ignored).
6. Variable-width broadening drops part of the weight of values with the widest kernel (C69_widest_loses_weight);
   kernels are cut at half the length of the axis.
7. `reorder_frequencies` need not be a permutation (C29_orthonormal_counterexample).
8. `calculate_structure_factor` drops the q-point weights (C83_weights_lost).
9. A frequency of exactly 0 makes Debye-Waller exponents NaN (C28_zero_frequency_nan).
10. `get_all_origins` with a step above 1 repeats origins (C37_step_repeats_origins).
11. `_check_gridpts`-type messages print the wrong quantity; two error messages lack the `f` prefix.
12. `spherical_polar_grid` raises `IndexError` for a single ring or column (C66_polar_grid_narrow);
    `regular_square(offset=False, jitter=True)` leaves the unit square; `golden_sphere(0)` divides by zero.
13. Pieces of `split` share the metadata dictionary of the original (C78_split_shares_metadata).
14. `select` repeats lines when values are repeated (C13_select_repeated_value).
15. Shared loop variables in the C extension: a data race (C54).
16. `det_array` in C has a wrong sign (C53); the C gamma correction leaves a stale imaginary part (C52).
17. Caches survive assignment of new attributes (C55_assignment_stale).
18. The reciprocal acoustic sum rule uses e eᵀ instead of e eᴴ (C48_complex_eigenvectors).
19. `from_total_fc_with_dipole` uses the transposed inverse of the supercell matrix (C77_positions_iff) and does not
    convert the dielectric tensor (C77_dielectric_unit).
20. Born charges without a dielectric tensor crash; a dielectric tensor without Born charges is not converted
    (C17_dielectric_without_born).
21. Phonopy: `fc_format in 'hdf5'` is a substring test (C63_fc_short_extensions_refused); a unit without '/' is
    mangled (C87_no_denominator); `reduced_to` absent is off by one (C88_absent_off_by_one); the supercell matrix is
    not transposed (C89_transposed); BORN replaces charges when only the factor is missing (C63_born_overridden); a
    trailing blank line in BORN raises.
22. CASTEP: non-adjacent blocks of a q-point are not merged (C59_apart_not_merged); fewer blocks than announced leave
    zero rows; a record of odd length can be cut unnoticed (C58_odd_length_cut); `_read_crystal_info` does not
    end at the end of the file; Born charges are not transposed when read.
23. `_get_energy_bins` without a positive frequency (C72_no_positive_frequency).
24. `_compose_style` and `BrilleInterpolator.from_force_constants` change their arguments.
25. C `round` and `np.rint` differ at half-integers (C53).
26. A single bin centre has width 0 (C07_single_centre_zero_width); evenly spaced centres are refused as irregular (C81).
27. `c[0:len(c)]` raises `IndexError` (C09_full_slice_refused).
28. `sum()` of a collection whose lines have keys of the common metadata (C11).
29. The spectroscopy context accepts reciprocal units and reads them wrongly (C16_reciprocal_unit_accepted_wrong); a
    failed assignment of data changes the unit (C16_failed_assignment_changes_unit).
30. A temperature in degrees Celsius cannot be written to a dictionary and read back (C17_celsius_fails).
31. JSON loses the shape of empty arrays (C18_empty_array_shape_lost).
32. `convert_fc_phases` misplaces blocks unless the atom list names first copies (C40_other_copy_misplaced).
33. q-points slightly below a lattice vector are not labelled (C36_below_lattice_point_unlabelled).
34. The LO-TO correction is dropped for integer directions (C49_integer_direction_dropped).
35. Dipole correction at gamma: the acoustic sum is not zero in general (C50_acoustic_sum_partial); crystals of one atom
    have no real-space Ewald sum.
36. Cell volumes are signed: left-handed cells get negative mode widths (C80_left_handed_negative) and dipole and
    LO-TO corrections of the wrong sign (C95_loto_wrong_sign, C95_not_independent).
37. A Gaussian width on a descending axis is silently ignored (C70); a single bin raises `IndexError`.
38. `width_lower_limit` is compared with the standard deviation, not the full width (C93_limit_on_sigma).
39. `--pdos` on a crystal of one species raises `KeyError` (C73_one_species_fails); absent species are silently
    ignored if one is present.
40. `euphonic-powder-map` with `q_max <= q_min` has no bins and then an unbound variable; `sampling` is documented as
    case-insensitive but compared exactly.
41. Data read from or assigned to a spectrum in its internal unit are shared, so `*=` shows elsewhere
    (C96_getter_alias, C96_setter_alias).
42. `.phonon` files cut at the end of a block are accepted with rows of zeros (C97_boundary_accepted); without
    eigenvectors cuts inside the last eigenvectors are accepted too (C97_cut_eigenvectors_accepted); a file without
    'Unit cell vectors' is read for ever (C97_no_cell_never_ends).
43. `.phonon_dos`: the heading of the table is not used, columns are attributed by the order of the atoms
    (C98_heading_ignored); a file that ends inside the table is accepted (C98_cut_table_accepted); one bin raises
    `IndexError` (C98_one_bin); one branch raises `ValueError`.
44. `get_reference_data` drops whole numbers, so `calculate_pdos` with incoherent weighting and the shipped BlueBook data
    refuses crystals with Sm, Th, Xe or Yb (C99_whole_numbers_dropped, C100_whole_number_refused); a file laid out as
    the docstring says is refused with `AttributeError` (C99_documented_layout_refused).
45. `euphonic-dos --adaptive --instrument-broadening W` uses `W`, documented as full width at half maximum, as a standard
    deviation: the peak is 2.355 times too wide (C102_adaptive_too_wide); `--adaptive-scale 0` is ignored
    (C101_scale_zero_ignored).
46. `Spectrum2D.broaden` with a width function does not refuse an axis of bin centres, as `Spectrum1D.broaden` does: the
    edges made of the centres begin with half a bin, and the peaks become twice as wide and are not normalised
    (C103_centres_too_wide). Without a width that is used the object itself is returned (C103_same_object).
47. `plot_2d` computes one range of colours in the unit of the first map but draws each map in its own unit, so maps of
    the same intensity in different units get different colours (C107_scale_units_mixed); units are checked only by
    `plot_1d` (C107_units). Subplots of lines have widths `inf` or `nan` if the first has an extent of zero. An empty
    list of tick labels, which the setter accepts, cannot be plotted (C106_refused).
48. `BrilleInterpolator.from_force_constants` writes `insert_gamma` and `reduce_qpts` into the caller's
    `interpolation_kwargs` dictionary, so a dictionary with `reduce_qpts=True` silently holds `False` afterwards
    (C108_argument_changed).
49. `euphonic-dispersion` fails with `ValueError` on phonon files with two or more gaps if a part between two gaps has no
    labelled q-point (labels are given to first and last points, gamma points, and changes of direction only): `split` gives
    this part an empty list of labels, which the setup of the axes unpacks (C109_stretch_without_label).
50. `euphonic-intensity-map` takes several numbers with `--energy-broadening`, which its help calls polynomial coefficients,
    and uses only the first (C110_coefficients_ignored); `euphonic-dos` and `euphonic-powder-map` use all of them. It also
    fails like `euphonic-dispersion` on files with parts without labels (C110_stretch_without_label).
51. With `--q-broadening` the intensities on both sides of a gap in the path of `euphonic-intensity-map` are mixed as if
    the points were neighbours: the broadening depends on the total length and the number of points only
    (C110_broadening_ignores_gaps). A warning is given.
52. `euphonic-powder-map --pdos X` draws nothing for a crystal all atoms of which are of species `X`: the grouped collection
    has no per-line metadata and `KeyError` is raised (C111_single_species). An empty range of |q| is reported as
    `UnboundLocalError` (C111_refused).
53. `euphonic-optimise-dipole-parameter` can try a value above `--max`, by up to a hundredth of the step
    (C112_above_maximum).
54. `check_brille_settings` called from Python with its default arguments always fails: `n_threads` is required among the
    keyword arguments (`AttributeError`) and the default `brille_npts=5000` is iterated over (`TypeError`) (C114_refused).
55. Labels of special points are tried on cyclic permutations of the coordinates also where the lattice has no such
    symmetry: in a tetragonal lattice (-1/2, 0, 1/2) is labelled M although it is equivalent to (0, 1/2, 1/2), which is
    labelled R (C115_rolled_wrong).
56. The sum of two spectra in compatible but different units, which the docstring of `Spectrum1D.__add__` allows, raises
    `AssertionError` (C116_other_unit); a spectrum with one bin can be added to one with two points at the edges of the bin,
    although the numbers of values differ (C116_one_bin).
57. `atom_r` is listed among the attributes of `ForceConstants` that are made contiguous for the C extension, but it belongs
    to the crystal: the listed name is skipped without a message, and a Fortran-ordered or single-precision
    `crystal.atom_r` is read wrongly by the dipole correction (C118_atom_r_wrong).
58. Integer arrays given where the C extension takes doubles (q-points with `reduce_qpts=False`, cell vectors in bohr, Born
    charges in e, dielectric constants; pint leaves integers as they are if the units agree) are converted to 32-bit
    integers, and C reads beyond their end (C118_integers_overrun).
59. The C extension computes the position of the matrix of a q-point in 32-bit integers, so eigenvectors of 2^31 doubles
    (16 GiB) or more are written to wrong addresses (C119_overflow); nothing limits their number.
60. If LAPACK's `zheevd` fails for a q-point, the C extension prints a message and goes on with whatever it has left in the
    arrays; its return value is ignored. Python's `eigh` raises (C121_failure_not_raised).
61. Every call of the C extension leaks a reference to `crystal.n_atoms` (`int_from_pyobj` never releases it; harmless for
    small integers), calls that fail leak what they have read before, and a missing `n_atoms` or `lambda` is undefined
    behaviour because the return value of the first lookup is ignored and an uninitialised pointer used (C122_n_atoms_leaked,
    C122_failure_leaks, C122_missing).
62. Periodic images are sought among two shells of supercells, with the 26 neighbouring lattice points as the test for
    being nearest. Both suffice for reduced supercells only. In a skewed cell a pair of atoms may be left without any image,
    so that its force constants do not enter the dynamical matrix at all (C123_lost; the array they are divided into keeps
    uninitialised memory there), or an image that is not nearest gets a share of them (C123_not_nearest). No warning is
    given. Even the primitive cell of a face-centred cubic lattice doubled along one vector is not reduced.
63. The C extension asks LAPACK's `zheevd` for the size of its work space with `&lworkopt`, the address of a `double`, as
    the complex array `WORK`: `WORK(1)` is written, 16 bytes to a variable of 8 (C119_query_overrun). That this has not been
    noticed depends on what the compiler puts behind the variable.
64. Plot options that are zero (`--line-width 0`, `--font-size 0`) are ignored without notice, because `_compose_style` tests
    the options for truth (C125_zero_ignored).
65. `_compose_style` appends to the list of base styles of its caller (C125_base_changed); a caller who uses the list again
    gets the options of the first call as well.
66. Imaginary frequencies are reported as negative numbers, minus the square root of minus the eigenvalue, and the mode
    gradient is divided by twice that negative number, where the derivative of the reported frequency has its absolute
    value: the reported gradients of imaginary modes have the wrong sign (C126_imaginary_sign,
    C126_imaginary_wrong).
67. The mode gradients leave out the derivative of the dipole correction: for polar materials they differ from the
    derivatives of the reported frequencies by exactly that term (C126_dipole_missing; C126_dipole_wrong has a crystal where the reported
    gradient is zero and the frequency has a derivative that is not). The documentation does not say so. What is left also
    depends on the cells the atoms are put in, by a term that C176_cells_corrected_partial gives (C176_cells_differ: a correction,
    not the one for dipoles, for which it is not zero).
68. The mode gradients of modes with equal frequencies depend on which eigenvectors the library happens to return, and
    need not be a slope of any frequency: two crossing modes with slopes -1 and +1 can be reported with gradients 7/25
    and -7/25 (C126_degenerate_wrong). Only their sum has a meaning (C126_degenerate_sum).
69. `euphonic-dos --pdos Si quartz.castep_bin` is refused, as is the file name directly after any option that takes any number
    of values (`--energy-broadening`, `--style`, `--instrument-broadening`, ...) or an optional one (`--asr`), although the
    usage message prints the file name last (C128_swallowed, C128_dos_wrong). It has to come first, or after `--`.
70. Negative numbers in exponent notation (`--e-min -1e-3`) are taken for unknown options and refused (C128_exponent).
71. `_get_cli_parser` constructs a `ValueError` for the feature `adaptive-broadening` without `ebins`, but does not raise it
    (euphonic/cli/utils.py:781); the features `powder` and `dipole-parameter-optimisation` together fail because both define
    `-n` (C127_build).
72. `--shape` without a value is accepted and gives `None` instead of the default `gauss` (the table of C127 has it as
    possibly `None`).
73. With `asr='reciprocal'` the frequencies depend on which copy of an atom is listed: the correction is calculated at the
    gamma point and added at all wavevectors without the phases that the dynamical matrix has. In a crystal of molecules
    without forces between them, whose modes have no dispersion, moving one atom of the molecule by a lattice vector changes
    the frequencies at the zone boundary (C131_reciprocal_lost).
74. The partial density of states of single atoms from symmetry-reduced wavevectors is not that of the full set: unlike
    `calculate_debye_waller`, `calculate_pdos` does not symmetrise, so equivalent atoms can get different lines, one of them
    twice what it should be and the other nothing (C137_atom_lost). The lines of a species added up are right.
75. Default bins of the `sample_sphere_*` functions start at zero: modes of imaginary frequency are not counted, the density of states is zero if the highest energy is zero, and negative, with descending edges, if it is negative (C140_unstable, C140_all_zero, C140_all_negative).
76. `sample_sphere_structure_factor(fc, q, dw=dw)` raises `ValueError` unless the Debye-Waller object was calculated for 273 K, the default of `temperature`; `temperature=None` must be given as well (C140_dw_alone).
77. `read_interpolation_data` of the Phonopy reader moves the atoms of the crystal into the cell (`atom_r - floor(atom_r)`) but converts the force constants with the coordinates as written. If two atoms of the primitive cell are written in different cells (for instance at 0 and 1.25, or at 0 and -0.25), the cell origins of the force constants do not fit the crystal: blocks are attributed to the wrong pair vectors, which changes the choice of supercell images (frequencies between the wavevectors of the supercell) and leaves the eigenvectors with the phases of the atoms as written while structure factors use the moved ones (C141_shifted). With all coordinates in one cell, as Phonopy writes them, nothing is wrong (C141_positions_partial).
78. The warning that mode gradients have imaginary parts ("Data may have been lost when casting to real mode gradients") looks at the signed imaginary parts: negative ones, however large, are dropped without a warning (C147_negative_lost).
79. `direction_changed` compares `|u| |v| - |u . v|` with an absolute tolerance of 5e-6, so on a densely sampled path (steps of about 0.002 reciprocal lattice units or less) no corner is ever found: `get_qpoint_labels` gives no labels to the corners (C150_fine_path). A path gamma-(1/2,0,0)-(1/2,1/2,0) loses the label of its corner when a segment has more than 223 steps (C150_elbow).
80. Reordering modes twice need not give the result of reordering them once if overlaps are equal (C149_ties).
81. For a crystal with one atom per cell the real-space part of the Ewald sum is always empty: shells are compared with the largest term of the cell at the origin, which is zero as the only pair there is skipped (C50_one_atom). This does no harm for neutral crystals, whose only charge is zero.
82. `spherical_polar_grid` yields points equally spaced in theta with no weights, and `sample_sphere_*` take plain means over them: with `sampling='spherical-polar-grid'` a powder average does not approach the average over the sphere, however many points are used. The mean of z^2 is exactly 1/2 for every grid where the average over the sphere is 1/3 (C152_polar_grid_biased). The other samplings converge.
83. `_bands_from_force_constants` gives Seekpath the numbers that the cell vectors have in `cell_vectors_unit`, together with a spacing in inverse angstrom: for a crystal held in another unit (from a JSON file, or after setting `cell_vectors_unit`) the spacing along the band path is that asked for divided by the unit in angstrom, for bohr nearly twice as coarse (C162_spacing, C162_unit_matters). `BrilleInterpolator.from_force_constants` does the same with `grid_density`, which is documented as points per 1/angstrom^3.
84. `explicit_kpoints_rel` of Seekpath refers to the primitive cell that Seekpath has chosen, but the modes are calculated at these coordinates with respect to the cell of the crystal. Where the two cells differ, for instance for a face-centred crystal in its conventional cell, the bands are those of other points than the labels say: what is labelled X is not X (C162_conventional, C162_face_centred).
