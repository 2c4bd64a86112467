{"id": "C01", "title": "Splitting a spectrum loses and duplicates nothing", "statement": "spectrum.split(indices=I) returns pieces whose y data (and, for point data, x data), concatenated in order, equal the data of the original spectrum exactly; every piece is a contiguous run and there are len(I)+1 pieces.", "quantifier": "every spectrum length, every list of increasing in-range indices (including the empty list and adjacent indices)", "why_tests_cant": "a test fixes a handful of index lists; an off-by-one at the first, last or an empty range only shows for particular lists and lengths", "anchors": ["euphonic/spectra.py: Spectrum.split, Spectrum._ranges_from_indices, Spectrum1D._split_by_indices, Spectrum1DCollection._split_by_indices"]}
{"id": "C02", "title": "Tick labels follow their data point through a split", "statement": "After split, every x tick label of the original occurs in exactly one piece, with its index shifted so that it marks the same data point as before, and no piece gains a label it did not have.", "quantifier": "every spectrum, every label list and every increasing index list", "why_tests_cant": "label positions interact with all split positions; tests only sample a few combinations", "anchors": ["euphonic/spectra.py: Spectrum._cut_x_ticks, Spectrum.split"]}
{"id": "C03", "title": "Automatic splitting breaks exactly at the large gaps", "statement": "split(btol=t) breaks between points i and i+1 if and only if the step x[i+1]-x[i] exceeds t times the median step; with no arguments t is 10; no piece contains such a gap.", "quantifier": "every x axis with at least two points and nonzero median step, every tolerance", "why_tests_cant": "the condition is a statement about all pairs of neighbouring points and all tolerances", "anchors": ["euphonic/spectra.py: Spectrum._split_by_tol, Spectrum.split"]}
{"id": "C04", "title": "Contradictory split arguments are refused", "statement": "split called with both indices and btol raises ValueError; with exactly one of them it uses that one; with neither it uses btol=10.", "quantifier": "every combination of presence/absence of the two arguments and every value of them", "why_tests_cant": "value-level independence (the result does not depend on an ignored default) is a universally quantified statement", "anchors": ["euphonic/spectra.py: Spectrum.split"]}
{"id": "C05", "title": "Only well-formed tick labels can be stored", "statement": "Assigning x_tick_labels succeeds if and only if the value is None or a sequence of (integer, string) pairs; the stored value then holds the same pairs with plain ints; a refused assignment leaves the spectrum unchanged.", "quantifier": "every dynamically typed value", "why_tests_cant": "the value space is unbounded and nested; tests try a few malformed shapes", "anchors": ["euphonic/spectra.py: Spectrum.x_tick_labels"]}
{"id": "C06", "title": "Bin edges and bin centres describe the same bins", "statement": "For an increasing x axis with n or n+1 values for n intensities, get_bin_edges returns n+1 increasing values, get_bin_centres n values, centre i lies within edges i and i+1, edges given as edges and centres given as centres are returned unchanged, and edges derived from centres start and end at the first and last centre.", "quantifier": "every n>=1 and every increasing axis", "why_tests_cant": "ordering and containment must hold for every spacing pattern; irregular spacing is where tests are thin", "anchors": ["euphonic/spectra.py: Spectrum.get_bin_edges, get_bin_centres, _bin_centres_to_edges, _bin_edges_to_centres, _is_bin_edge"]}
{"id": "C07", "title": "Bin widths tile the axis", "statement": "get_bin_widths returns one width per intensity, all positive for an increasing axis, and they sum to the distance between first and last edge.", "quantifier": "every increasing axis of any length", "why_tests_cant": "a sum over an arbitrary number of bins", "anchors": ["euphonic/spectra.py: Spectrum.get_bin_widths"]}
{"id": "C08", "title": "Axes of the wrong length are refused", "statement": "The bin helpers treat an axis of length n+1 as edges and of length n as centres and raise ValueError for any other length; the Spectrum1D constructor accepts exactly these two lengths.", "quantifier": "every axis length and every data length", "why_tests_cant": "two unbounded lengths", "anchors": ["euphonic/spectra.py: Spectrum._is_bin_edge, Spectrum1D.__init__", "euphonic/validate.py: _check_constructor_inputs"]}
{"id": "C09", "title": "A collection behaves as a sequence of its spectra", "statement": "len(c) is the number of rows; c[i] for -len<=i<len is the spectrum with row i, the shared axis and the metadata that applies to row i; any other integer raises IndexError; iterating yields exactly len(c) spectra in row order.", "quantifier": "every collection and every integer index", "why_tests_cant": "negative indices and boundaries for every length", "anchors": ["euphonic/spectra.py: SpectrumCollectionMixin.__len__, __getitem__, _validate_item, _get_item_metadata"]}
{"id": "C10", "title": "Building a collection from spectra and reading it back is lossless", "statement": "list(from_spectra(L)) equals L item by item (axis, data, metadata) for spectra on a common axis, and from_spectra(list(c)) has the data of c and describes the same metadata for each line.", "quantifier": "every non-empty list of spectra and every assignment of metadata dictionaries", "why_tests_cant": "metadata dictionaries are arbitrary; which keys are common depends on all lines at once", "anchors": ["euphonic/spectra.py: Spectrum1DCollection.from_spectra, SpectrumCollectionMixin._combine_metadata, iter_metadata"]}
{"id": "C11", "title": "sum() adds the intensities and keeps only common metadata", "statement": "c.sum() has, at every bin, the sum over rows, is unchanged by reordering rows, and its metadata are exactly the entries shared by all lines (plus the recorded list of per-line differences).", "quantifier": "every collection", "why_tests_cant": "sums over arbitrary many rows and arbitrary metadata", "anchors": ["euphonic/spectra.py: SpectrumCollectionMixin.sum, _combine_metadata, _tidy_metadata"]}
{"id": "C12", "title": "group_by partitions the lines and conserves intensity", "statement": "group_by(*keys) puts every line in exactly one group; two lines share a group if and only if they agree on all keys (a missing key counts as a value of its own); groups appear in order of first appearance; the total over all groups equals the total over all lines.", "quantifier": "every collection, every list of keys", "why_tests_cant": "partition and conservation laws over arbitrary metadata", "anchors": ["euphonic/spectra.py: SpectrumCollectionMixin.group_by", "euphonic/util.py: _get_unique_elems_and_idx"]}
{"id": "C13", "title": "select returns exactly the matching lines", "statement": "select(**criteria) returns a line if and only if, for every criterion, its metadata value is one of the allowed values; when criteria have distinct values each line is returned once; if nothing matches an error is raised rather than an empty collection.", "quantifier": "every collection and every criteria dictionary", "why_tests_cant": "cross products of criteria over arbitrary metadata", "anchors": ["euphonic/spectra.py: SpectrumCollectionMixin.select, _select_indices"]}
{"id": "C14", "title": "Adding collections concatenates them", "statement": "a + b contains the lines of a followed by the lines of b with data and metadata intact; addition is associative.", "quantifier": "all collections on a common axis", "why_tests_cant": "algebraic law over all triples", "anchors": ["euphonic/spectra.py: SpectrumCollectionMixin.__add__"]}
{"id": "C15", "title": "Scaling a spectrum scales intensities and nothing else", "statement": "s*k multiplies every intensity by k, leaves axes, units, ticks and metadata unchanged, (s*k)*l = s*(k*l), s*1 = s, and s itself is unchanged by s*k; s *= k has the same effect in place. This must hold for each of the four spectrum classes.", "quantifier": "all spectra of the four classes, all scalars", "why_tests_cant": "a universally quantified law over four classes; inheritance can silently pick the wrong axis", "anchors": ["euphonic/spectra.py: Spectrum.__imul__, Spectrum.__mul__, Spectrum2D.__imul__, Spectrum2DCollection"]}
{"id": "C16", "title": "Changing a unit changes only the representation", "statement": "For every attribute with a unit: reading after setting the unit to u and back gives the original value; the internal value is unaffected by any sequence of unit changes; setting a unit of incompatible dimension raises and leaves the object as it was.", "quantifier": "all objects with unit attributes, all sequences of unit changes", "why_tests_cant": "history property: arbitrary sequences of assignments", "anchors": ["euphonic/validate.py: _check_unit_conversion", "euphonic/crystal.py: Crystal.cell_vectors, atom_mass", "euphonic/spectra.py: Spectrum.x_data, y_data, __setattr__", "euphonic/qpoint_frequencies.py: frequencies", "euphonic/force_constants.py: force_constants, born, dielectric", "euphonic/debye_waller.py"]}
{"id": "C17", "title": "to_dict / from_dict is lossless", "statement": "from_dict(to_dict(x)) reproduces x, including units, absent optional parts and metadata, for the crystal, frequency, spectrum and force-constants classes.", "quantifier": "every object of the class, every combination of present and absent optional parts", "why_tests_cant": "all subsets of optional attributes and arbitrary metadata", "anchors": ["euphonic/io.py: _obj_to_dict, _process_dict", "euphonic/spectra.py: Spectrum1D.to_dict, from_dict", "euphonic/crystal.py: to_dict, from_dict", "euphonic/force_constants.py: to_dict, from_dict"]}
{"id": "C18", "title": "JSON encoding is lossless, also for complex arrays", "statement": "Reading back the JSON form of any object dictionary gives the same dictionary: complex arrays come back as complex arrays, nested dictionaries are treated recursively, real arrays, strings and numbers are unchanged.", "quantifier": "every nested dictionary built from numbers, strings, real and complex arrays of any shape", "why_tests_cant": "unbounded nesting and shapes", "anchors": ["euphonic/io.py: _to_json_dict, _from_json_dict, _obj_to_json_file, _obj_from_json_file"]}
{"id": "C19", "title": "Constructors accept exactly the well-shaped inputs", "statement": "The shared constructor check accepts a list of arguments if and only if each has an allowed type and (when it is an array) one of the allowed shapes, where -1 matches any extent; None passes only where allowed; otherwise it raises TypeError or ValueError accordingly.", "quantifier": "all argument lists, type lists and shape lists", "why_tests_cant": "all ranks and extents", "anchors": ["euphonic/validate.py: _check_constructor_inputs, _replace_dim"]}
{"id": "C20", "title": "The DOS integrates to three modes-worth of the weight inside the bins", "statement": "calculate_dos over bins B gives values whose sum times bin width equals 3 times the weighted fraction of modes whose frequency lies in [first edge, last edge); in particular it is 3 when all frequencies lie inside.", "quantifier": "every set of frequencies, weights with nonzero sum, and every increasing set of bin edges", "why_tests_cant": "all q-point counts, weights and irregular bins; boundary frequencies equal to an edge", "anchors": ["euphonic/qpoint_frequencies.py: _calculate_dos"]}
{"id": "C21", "title": "Each mode is counted in the bin that contains it", "statement": "A mode of frequency f adds its weight to bin i if and only if edge[i] <= f < edge[i+1]; modes below the first edge or at/above the last edge are dropped and never wrap to another bin.", "quantifier": "every frequency and every increasing edge list", "why_tests_cant": "boundary behaviour for all edges", "anchors": ["euphonic/qpoint_frequencies.py: _calculate_dos", "euphonic/structure_factor.py: _bose_corrected_structure_factor"]}
{"id": "C22", "title": "The DOS depends on weight ratios and not on q-point order", "statement": "Multiplying all weights by a nonzero constant, or permuting q-points together with their weights, leaves calculate_dos unchanged; default weights give the same result as any equal weights.", "quantifier": "all constants and permutations", "why_tests_cant": "all permutations of arbitrary length", "anchors": ["euphonic/qpoint_frequencies.py: _calculate_dos, __init__"]}
{"id": "C23", "title": "Partial DOS add up to the total DOS", "statement": "With normalised eigenvectors, the sum over atoms of calculate_pdos equals calculate_dos in every bin; grouping by species and summing gives the same total.", "quantifier": "all eigenvector sets normalised to one, all bins and weights", "why_tests_cant": "sum over arbitrary many atoms/modes", "anchors": ["euphonic/qpoint_phonon_modes.py: calculate_pdos"]}
{"id": "C24", "title": "S(Q,w) conserves intensity up to the population factors", "statement": "Every mode with energy w inside the bins contributes (1+n)*S to the bin containing +w and n*S to the bin containing -w; with no temperature both contribute S; the row total is the sum over the contributions falling in range.", "quantifier": "all structure factors, frequencies, bins; with a temperature in use, for frequencies that are not exactly zero (where the population factor is infinite).", "why_tests_cant": "all mode counts and bins with either sign", "anchors": ["euphonic/structure_factor.py: _bose_corrected_structure_factor, calculate_sqw_map"]}
{"id": "C25", "title": "Detailed balance", "statement": "For every mode energy w>0 and temperature T>0 the weight on the energy-gain side is exp(-w/kT) times the weight on the energy-loss side; at T=0 the gain side is zero and the loss side is unmodified.", "quantifier": "all energies and temperatures", "why_tests_cant": "a real-analytic identity, not checkable pointwise", "anchors": ["euphonic/structure_factor.py: _bose_factor, _bose_corrected_structure_factor"]}
{"id": "C26", "title": "Conflicting temperatures are refused", "statement": "calculate_sqw_map/_bose_factor with a temperature different from the one stored with the structure factor raises ValueError; with none given the stored one is used; with neither, the calculation proceeds without population factor (or raises where required); the structure factor of a Debye-Waller with different temperature is refused.", "quantifier": "all combinations of stored/given/absent temperatures", "why_tests_cant": "all values: independence from the value actually used", "anchors": ["euphonic/structure_factor.py: _bose_factor, calculate_sqw_map"]}
{"id": "C27", "title": "Structure factors are non-negative and do not depend on eigenvector phase", "statement": "calculate_structure_factor gives real values >= 0, unchanged when each eigenvector is multiplied by any unit complex number and when the origin of the cell is moved; with Debye-Waller exponents >= 0 it is bounded by the squared sum of the moduli of the undamped atom terms, and when all atoms share the exponent E it is exp(-2E) times the undamped value.", "quantifier": "all crystals, eigenvectors, q-points, phases", "why_tests_cant": "continuous phases and arbitrary complex data", "anchors": ["euphonic/qpoint_phonon_modes.py: calculate_structure_factor"]}
{"id": "C28", "title": "Debye-Waller exponents are symmetric positive semidefinite and independent of chunking", "statement": "calculate_debye_waller returns, for every atom, a symmetric 3x3 matrix W with x.W.x >= 0 for all x (for real positive frequencies), and the result does not depend on how q-points are cut into chunks.", "quantifier": "all q-point numbers (hence all chunk boundaries), all eigenvectors", "why_tests_cant": "chunk boundaries at every multiple of the chunk size", "anchors": ["euphonic/qpoint_phonon_modes.py: calculate_debye_waller"]}
{"id": "C29", "title": "Reordering modes is a permutation at every q-point", "statement": "reorder_frequencies leaves, at each q-point, the multiset of frequencies unchanged (it only permutes them, together with the eigenvectors).", "quantifier": "all mode data, including eigenvectors with zero overlaps", "why_tests_cant": "depends on the overlap matrix at every step; greedy tie/zero cases are rare in data", "anchors": ["euphonic/qpoint_phonon_modes.py: reorder_frequencies"]}
{"id": "C30", "title": "Reciprocal lattice is dual to the lattice", "statement": "For every non-degenerate cell, reciprocal_cell B satisfies a_i . b_j = 2 pi delta_ij; the volume of B is (2 pi)^3 / volume; the cell volume is unchanged by cyclic permutation of the vectors.", "quantifier": "all invertible 3x3 cells", "why_tests_cant": "algebraic identity over reals", "anchors": ["euphonic/crystal.py: reciprocal_cell, cell_volume"]}
{"id": "C31", "title": "Monkhorst-Pack grids are complete, centred and distinct", "statement": "mp_grid((l,m,n)) has l*m*n distinct points, each coordinate in (-1/2,1/2), the set is closed under q -> -q, the mean is zero, and coordinates along each axis are equally spaced by 1/l, 1/m, 1/n.", "quantifier": "all positive grid sizes", "why_tests_cant": "all sizes, even and odd", "anchors": ["euphonic/util.py: mp_grid"]}
{"id": "C32", "title": "Grid specification honours the requested spacing", "statement": "get_mp_grid_spec(spacing) returns for each axis the smallest positive number of divisions N such that |b|/N <= spacing.", "quantifier": "all cells and positive spacings", "why_tests_cant": "rounding behaviour at exact multiples", "anchors": ["euphonic/crystal.py: get_mp_grid_spec"]}
{"id": "C33", "title": "Species indices partition the atoms", "statement": "get_species_idx maps each species to the increasing list of its atom indices; the lists are disjoint, non-empty and cover all atoms; species appear in order of first appearance.", "quantifier": "all atom type lists", "why_tests_cant": "arbitrary repetition patterns", "anchors": ["euphonic/crystal.py: get_species_idx", "euphonic/util.py: _get_unique_elems_and_idx"]}
{"id": "C34", "title": "Path distance is non-decreasing and starts at zero", "statement": "The dispersion x axis has one value per q-point, starts at 0, never decreases, and does not move between two q-points that differ by a reciprocal lattice vector.", "quantifier": "all q-point lists and cells", "why_tests_cant": "all lengths; equivalence jumps anywhere", "anchors": ["euphonic/util.py: _calc_abscissa", "euphonic/qpoint_frequencies.py: get_dispersion"]}
{"id": "C35", "title": "First, last and special q-points are labelled", "statement": "get_qpoint_labels returns strictly increasing in-range indices which always include the first and the last q-point, every interior gamma point, every point repeated by its successor and every interior direction change, and no other.", "quantifier": "all q-point lists (including lengths 0, 1, 2)", "why_tests_cant": "short lists and all interior patterns", "anchors": ["euphonic/util.py: get_qpoint_labels, _recip_space_labels, direction_changed"]}
{"id": "C36", "title": "Label lookup ignores lattice translations and is sound", "statement": "The label of a q-point is unchanged by adding an integer vector; a non-empty label is only returned if a cyclic roll of the reduced coordinates matches its reference coordinates within tolerance; an exact match of the unrolled point takes precedence.", "quantifier": "all q-points and label tables", "why_tests_cant": "all integer shifts", "anchors": ["euphonic/util.py: _get_qpt_label"]}
{"id": "C37", "title": "Cell-origin enumeration is complete and duplicate-free", "statement": "get_all_origins(max,min) lists every integer triple with min<=x<max exactly once, in lexicographic order, for unit step.", "quantifier": "all integer ranges", "why_tests_cant": "all sizes and negative ranges", "anchors": ["euphonic/util.py: get_all_origins"]}
{"id": "C38", "title": "Ewald shells partition the integer lattice", "statement": "The origins in shell n are exactly the integer triples with max(|x|,|y|,|z|)=n, each once; hence shells 0..n together enumerate the cube of side 2n+1 exactly once and each shell is closed under negation.", "quantifier": "all n", "why_tests_cant": "edges and corners for all n", "anchors": ["euphonic/force_constants.py: _get_shell_origins"]}
{"id": "C39", "title": "Supercell relative indices are translations modulo the supercell", "statement": "If _get_supercell_relative_idx succeeds, entry (i,j)=n satisfies origin_j - origin_i - origin_n in the supercell lattice; if the origins are a complete set of distinct representatives closed modulo the supercell, it succeeds, n is unique and j -> n is a permutation for each i; the chunked search gives the same answer as an unchunked one.", "quantifier": "all supercell matrices with nonzero determinant, all origin lists", "why_tests_cant": "the chunk boundary (100 cells) and lattice arithmetic for all matrices", "anchors": ["euphonic/util.py: _get_supercell_relative_idx"]}
{"id": "C40", "title": "Converted force constants keep every pair interaction", "statement": "convert_fc_phases places each phonopy force constant between primitive atom i and supercell atom k at the cell whose origin is congruent to the relative cell of k, so that for every pair the total interaction modulo the supercell is unchanged.", "quantifier": "all supercells, atom orders and cells for each atom", "why_tests_cant": "index arithmetic over arbitrary orderings", "anchors": ["euphonic/util.py: convert_fc_phases"]}
{"id": "C41", "title": "Inconsistent supercells and non-integer origins are refused", "statement": "convert_fc_phases raises ValueError when the atom counts do not match the determinant and RuntimeError when any cell origin is further than the tolerance from an integer; otherwise origins are the nearest integers.", "quantifier": "all inputs", "why_tests_cant": "all counts and tolerances", "anchors": ["euphonic/util.py: convert_fc_phases"]}
{"id": "C42", "title": "Phases are exponentials of q.R", "statement": "The factored phase computation (powers of exp(2 pi i q_k) over unique coordinates, re-indexed) gives exp(2 pi i q.R) for each cell origin and each supercell image, and padding images contribute nothing.", "quantifier": "all q-points and integer origins, including negative ones", "why_tests_cant": "an identity over all integers and reals", "anchors": ["euphonic/force_constants.py: _calculate_phases, _calculate_dyn_mat"]}
{"id": "C43", "title": "The dynamical matrix is Hermitian", "statement": "For force constants that are symmetric under exchanging the two atoms together with reversing the cell vector, and an image list with the same symmetry, the dynamical matrix at every q is Hermitian.", "quantifier": "all crystals, q-points, force constants", "why_tests_cant": "continuous q and arbitrary sizes", "anchors": ["euphonic/force_constants.py: _calculate_dyn_mat"]}
{"id": "C44", "title": "Frequencies are periodic in reciprocal space and even in q", "statement": "The dynamical matrix at q+G equals that at q for every integer vector G, and at -q equals the complex conjugate; hence frequencies are periodic and even and reduce_qpts cannot change them.", "quantifier": "all q, all integer G", "why_tests_cant": "all lattice vectors", "anchors": ["euphonic/force_constants.py: _calculate_phonons_at_qpts, _calculate_dyn_mat"]}
{"id": "C45", "title": "Reducing q-points does not change the output", "statement": "With reduce_qpts the result at position i is the calculation at (a point equivalent to) q_i for every i; the number and order of outputs are unchanged; every gamma point keeps its own splitting direction when splitting is on.", "quantifier": "all q-point lists, any repetition pattern, any number of gamma points", "why_tests_cant": "all multisets and orders", "anchors": ["euphonic/force_constants.py: _calculate_phonons_at_qpts, _get_q_dirs"]}
{"id": "C46", "title": "Inserting gamma points conserves weights and order", "statement": "With insert_gamma every interior gamma point appears exactly twice consecutively, first/last and non-gamma points once, in the original order; the total weight is unchanged and each duplicate carries half the weight.", "quantifier": "all q-point lists and weights", "why_tests_cant": "multiple simultaneous insertions shift indices", "anchors": ["euphonic/force_constants.py: _calculate_phonons_at_qpts"]}
{"id": "C47", "title": "Supercell images are exactly those inside the Wigner-Seitz cell", "statement": "Image m is recorded for pair (i, j in cell c) if and only if the vector passes all Wigner-Seitz plane tests; the recorded count equals the number of recorded images, they are distinct and in increasing order; the sum of image weights is the force constant whenever at least one image exists.", "quantifier": "all geometries", "why_tests_cant": "progressive filtering with early exit over all pairs", "anchors": ["euphonic/force_constants.py: _calculate_supercell_images"]}
{"id": "C48", "title": "Acoustic sum rule correction sets the acoustic eigenvalues to (almost) zero and leaves others", "statement": "After the correction the three acoustic eigenvectors have eigenvalues within the stated tolerance of zero and every eigenvector orthogonal to them keeps its eigenvalue; the matrix stays Hermitian.", "quantifier": "all Hermitian matrices and orthonormal eigenvector sets", "why_tests_cant": "spectral statement for all sizes; complex eigenvectors are numerically rare at gamma", "anchors": ["euphonic/force_constants.py: _enforce_reciprocal_asr, _enforce_realspace_asr, _find_acoustic_modes"]}
{"id": "C49", "title": "The LO-TO correction depends only on the direction", "statement": "The non-analytic correction is symmetric, unchanged when the q-direction is multiplied by any nonzero scalar (so also under reversal), zero for a zero direction, of rank one in the Born-charge vector, and positive semidefinite for positive cell volume and dielectric.", "quantifier": "all directions, scalars, Born charges, dielectric tensors", "why_tests_cant": "scalar invariance over reals", "anchors": ["euphonic/force_constants.py: _calculate_gamma_correction"]}
{"id": "C50", "title": "The dipole correction is Hermitian", "statement": "The Ewald dipole correction at every q is Hermitian for symmetric dielectric; at gamma it satisfies the acoustic sum rule over atoms when Born charges sum to zero or by subtraction of the q=0 term.", "quantifier": "all q, all atoms", "why_tests_cant": "continuous q, arbitrary sizes", "anchors": ["euphonic/force_constants.py: _calculate_dipole_correction, _dipole_correction_init"]}
{"id": "C51", "title": "Imaginary modes are reported as negative frequencies", "statement": "The reported frequency f of a mode with eigenvalue e satisfies f*|f| = e (so f<0 iff e<0), identically in the Python and the C code paths, and order is preserved.", "quantifier": "all real eigenvalues", "why_tests_cant": "all reals incl. zero", "anchors": ["euphonic/force_constants.py: _calculate_phonons_at_q", "c/dyn_mat.c: evals_to_freqs"]}
{"id": "C52", "title": "C and Python dynamical matrices agree", "statement": "For every q the C routine produces on the upper block triangle the complex conjugate of the Python dynamical matrix (its declared convention), so both describe the same Hermitian matrix; the gradient routine agrees too.", "quantifier": "all inputs", "why_tests_cant": "two implementations over all sizes; loops vs array expressions", "anchors": ["c/dyn_mat.c: calculate_dyn_mat_at_q", "euphonic/force_constants.py: _calculate_dyn_mat"]}
{"id": "C53", "title": "C helper arithmetic agrees with linear algebra", "statement": "The 3x3 determinant, cell volume, complex products and gamma test used in C agree with the values used in Python for all inputs.", "quantifier": "all 3x3 arrays, all complex pairs", "why_tests_cant": "a wrong sign is invisible for diagonal or symmetric-special inputs used by tests", "anchors": ["c/util.c: det_array, cell_volume, cmult, cmult_conj, is_gamma"]}
{"id": "C54", "title": "Results do not depend on the number of threads or on scheduling", "statement": "For every interleaving of the worker threads of the compiled extension the output for each q-point equals the sequential result, and no out-of-range memory is read.", "quantifier": "all schedules, all numbers of threads, all q-point lists", "why_tests_cant": "races show up only on particular interleavings", "anchors": ["c/_euphonic.c: calculate_phonons"]}
{"id": "C55", "title": "Results depend on current attribute values, not on call history", "statement": "calculate_qpoint_phonon_modes returns the same result as a freshly constructed object with the same attribute values, whatever calculations (with whatever options) or assignments happened before.", "quantifier": "all histories of calls and attribute assignments", "why_tests_cant": "history property; caches are invisible in single-call tests", "anchors": ["euphonic/force_constants.py: _calculate_phonons_at_qpts (_sc_image_i, _dipole_init_data, _force_constants_asr)"]}
{"id": "C56", "title": "Backend and thread-count selection", "statement": "use_c=False never uses C; use_c=True uses C or raises ImportCError; use_c=None uses C if importable, else falls back to Python with a warning; the thread count is the argument, else the environment variable, else the CPU count.", "quantifier": "all combinations of arguments and environments", "why_tests_cant": "environment-dependent branches", "anchors": ["euphonic/force_constants.py: _calculate_phonons_at_qpts"]}
{"id": "C57", "title": "Dipole and splitting options are consistent", "statement": "Without Born charges neither dipole nor LO-TO corrections are applied, whatever the flags; with dipole=False splitting is not applied; gamma points are only inserted if splitting is in effect.", "quantifier": "all flag combinations", "why_tests_cant": "interaction of four flags and data presence", "anchors": ["euphonic/force_constants.py: _calculate_phonons_at_qpts"]}
{"id": "C58", "title": "Fortran records are read exactly or refused", "statement": "Reading a record from a .castep_bin whose length is a multiple of the item size returns exactly the payload and leaves the file at the next record; a file truncated at any byte inside a record, or with mismatching record markers, raises an error and never returns data.", "quantifier": "all payloads, all truncation points", "why_tests_cant": "every crash/truncation point", "anchors": ["euphonic/readers/castep.py: _read_entry"]}
{"id": "C59", "title": "Split gamma points share the weight of their q-point", "statement": "Reading a .phonon file in which the blocks of a q-point follow each other: with average_repeat_points the weights of the blocks of one q-point sum to the weight given once; with prefer_non_loto and a unique unsplit block all weight is on that block; other q-points are unaffected; ambiguity raises.", "quantifier": "all block sequences", "why_tests_cant": "arbitrary runs of repeated ids", "anchors": ["euphonic/readers/castep.py: read_phonon_data"]}
{"id": "C60", "title": "No q-point block is lost", "statement": "read_phonon_data returns the blocks of the file in file order, whether there are more blocks than announced in the header or exactly as many; fewer blocks leave zero-weight padding at the end.", "quantifier": "all block counts and headers", "why_tests_cant": "all relations between announced and actual counts", "anchors": ["euphonic/readers/castep.py: read_phonon_data"]}
{"id": "C61", "title": "Phonopy weights are normalised", "statement": "Weights read from phonopy sum to one and keep their ratios for every list of positive weights.", "quantifier": "all weight lists with nonzero sum", "why_tests_cant": "sum over arbitrary length", "anchors": ["euphonic/readers/phonopy.py: _convert_weights"]}
{"id": "C62", "title": "Phonopy eigenvector conversion only changes phases", "statement": "convert_eigenvector_phases multiplies each component by a unit complex number that is the product of a per-mode phase and exp(2 pi i q.r_atom): norms and overlaps of modes at the same q are preserved up to per-mode phases, gamma-point eigenvectors are unchanged.", "quantifier": "all eigenvectors, q-points and atom positions", "why_tests_cant": "continuous data", "anchors": ["euphonic/readers/phonopy.py: convert_eigenvector_phases"]}
{"id": "C63", "title": "Phonopy file-format decisions", "statement": "Every extension documented as HDF5 is read as HDF5 and every YAML extension as YAML; an unknown format raises; force constants and Born charges are read from separate files only if absent from the summary; Born charges without a conversion factor raise.", "quantifier": "all extensions/format arguments, all subsets of present keys", "why_tests_cant": "all combinations of presence", "anchors": ["euphonic/readers/phonopy.py: read_phonon_data, read_interpolation_data"]}
{"id": "C64", "title": "Force-constant shapes are checked", "statement": "_check_fc_shape accepts exactly the compact (n, n*N) and full (n*N, n*N) shapes.", "quantifier": "all shapes", "why_tests_cant": "all integer pairs", "anchors": ["euphonic/readers/phonopy.py: _check_fc_shape, _extract_force_constants"]}
{"id": "C65", "title": "CASTEP per-species data are expanded consistently", "statement": "Reading the cell of a .castep_bin gives one position, mass and symbol per atom; atom k belongs to the species whose cumulative count interval contains k, and its position is the corresponding entry of the padded array.", "quantifier": "all species counts", "why_tests_cant": "all partitions of atoms into species", "anchors": ["euphonic/readers/castep.py: _read_cell"]}
{"id": "C66", "title": "Spherical samplings return the requested number of unit vectors", "statement": "golden_sphere, sphere_from_square_grid, spherical_polar_grid, spherical_polar_improved, random_sphere yield exactly the requested number of points and every point has unit norm; square samplings stay in the unit square.", "quantifier": "all point counts", "why_tests_cant": "all counts; rounding of ring sizes", "anchors": ["euphonic/sampling.py"]}
{"id": "C67", "title": "Kinematic mask removes exactly the inaccessible bins", "statement": "apply_kinematic_constraints keeps the value of a bin if and only if the bin centre energy/momentum satisfies the kinematic bounds for the given incident or final energy and angle range, and replaces it by NaN otherwise; giving both or neither energy raises.", "quantifier": "all axes, energies, angle ranges", "why_tests_cant": "continuous parameters", "anchors": ["euphonic/spectra.py: apply_kinematic_constraints, _get_cos_range"]}
{"id": "C68", "title": "Cosine range is the exact range over the angle interval", "statement": "For every angle interval the limits returned are the minimum and maximum of cos over that interval.", "quantifier": "all real intervals", "why_tests_cant": "continuous intervals; several periods", "anchors": ["euphonic/spectra.py: _get_cos_range"]}
{"id": "C69", "title": "Variable-width broadening distributes every contribution with total weight one", "statement": "In interpolated broadening, for every input value the mixing weights given to the two neighbouring kernels sum to one and every input value is assigned to at least one kernel; with a single width the result is the plain convolution.", "quantifier": "all width arrays and data", "why_tests_cant": "arbitrary width distributions", "anchors": ["euphonic/broadening.py: _width_interpolated_broadening"]}
{"id": "C70", "title": "Broadening is linear and keeps the axis", "statement": "Broadening keeps the number of bins and axes, and is linear: broaden(a*s+b*t) = a*broaden(s)+b*broaden(t); total intensity never increases for non-negative data with normalised kernels and is conserved when the kernel support stays within the axis.", "quantifier": "all data and widths", "why_tests_cant": "linearity over all inputs", "anchors": ["euphonic/spectra.py: _broaden_data", "euphonic/broadening.py"]}
{"id": "C71", "title": "Band-path ticks, breaks and inserted gamma points are consistent", "statement": "Tick labels list exactly the labelled points in order (GAMMA rendered as $\\Gamma$); a break is placed exactly between adjacent different labels; gamma insertion duplicates exactly the interior GAMMA points in both coordinates and labels.", "quantifier": "all label lists", "why_tests_cant": "all patterns of adjacency; simultaneous insertions", "anchors": ["euphonic/cli/utils.py: _get_tick_labels, _get_break_points, _insert_gamma"]}
{"id": "C72", "title": "Automatic energy bins cover all modes", "statement": "_get_energy_bins with no limits returns strictly increasing edges, first edge <= 0 and below every frequency, last edge above every frequency; a non-increasing range raises.", "quantifier": "all frequency sets, bin counts, limits", "why_tests_cant": "all data including negative-only frequencies", "anchors": ["euphonic/cli/utils.py: _get_energy_bins"]}
{"id": "C73", "title": "Weighting and grouping options", "statement": "--weighting values map to the calculate_pdos weighting by removing the last \"-dos\" component and plain dos to none; --pdos arranges exactly the requested species, with the total included only when no species were named.", "quantifier": "all strings; all species lists", "why_tests_cant": "all strings", "anchors": ["euphonic/cli/utils.py: _get_pdos_weighting, _arrange_pdos_groups"]}
{"id": "C74", "title": "Powder sampling point counts respect the limits", "statement": "With --npts-density the number of points is within [npts_min, npts_max] and non-decreasing in |q|; spherical sampling helpers round up to the next admissible count.", "quantifier": "all densities, radii and limits", "why_tests_cant": "all values", "anchors": ["euphonic/cli/powder_map.py: main", "euphonic/powder.py: _get_qpts_sphere"]}
{"id": "C75", "title": "Symmetry equivalence classes partition atoms", "statement": "get_symmetry_equivalent_atoms assigns each atom to itself under the identity and maps atoms only to atoms of the same species; each operation acts as a permutation when symmetry holds; otherwise an error is raised.", "quantifier": "all crystals and operation lists", "why_tests_cant": "all group operations", "anchors": ["euphonic/crystal.py: get_symmetry_equivalent_atoms"]}
{"id": "C76", "title": "Cartesian/fractional q conversion is inverse", "statement": "Converting Cartesian q-points to fractional and multiplying with the reciprocal cell gives the original; |Q| of points sampled on a sphere equals the requested modulus.", "quantifier": "all invertible cells and q", "why_tests_cant": "all reals", "anchors": ["euphonic/powder.py: _qpts_cart_to_frac"]}
{"id": "C77", "title": "Total-to-short-range force constants use true supercell coordinates", "statement": "from_total_fc_with_dipole evaluates the dipole term for the supercell crystal whose Cartesian atom positions are those of the repeated unit cells, and with the dielectric in atomic units.", "quantifier": "all supercell matrices (also non-symmetric) and units", "why_tests_cant": "tests use diagonal supercells and default units", "anchors": ["euphonic/force_constants.py: from_total_fc_with_dipole"]}
{"id": "C78", "title": "Copies and pieces are independent of the original", "statement": "Modifying a copy (data, metadata or ticks) never changes the original; the same for pieces returned by split.", "quantifier": "all sequences of mutations", "why_tests_cant": "aliasing shows only after particular mutation sequences", "anchors": ["euphonic/spectra.py: Spectrum1D.copy, Spectrum.split, SpectrumCollectionMixin.copy"]}
{"id": "C79", "title": "File loading dispatch is by suffix and content", "statement": "load_data_from_file returns force constants, modes or frequencies according to suffix and content, never reads eigenvectors when frequencies_only is set, and raises for unknown suffixes or contents.", "quantifier": "all suffixes and file contents", "why_tests_cant": "all combinations", "anchors": ["euphonic/cli/utils.py: load_data_from_file, _load_euphonic_json, _load_phonopy_file"]}
{"id": "C80", "title": "Mode widths are non-negative, homogeneous, and independent of vector/scalar form", "statement": "mode_gradients_to_widths gives non-negative widths that scale linearly with the gradients and with the inverse cube root of the number of q-points; a vector gradient gives the same as its norm; other shapes raise.", "quantifier": "all gradients", "why_tests_cant": "scaling laws over all inputs", "anchors": ["euphonic/util.py: mode_gradients_to_widths"]}
{"id": "C81", "title": "Regular-bin assertion accepts exactly regular bins", "statement": "assert_regular_bins passes exactly when every bin width is within atol + rtol*|first width| of the first width and raises AssertionError otherwise; in particular bins with equal edges spacing pass. For axes given as evenly spaced centres the derived edge bins are half as wide at the ends, so such an axis with three or more points is refused.", "quantifier": "every axis length, every axis values, every tolerance", "why_tests_cant": "Tests check a few axes; the claim is an equivalence over all axes and tolerances.", "anchors": ["euphonic/spectra.py: Spectrum.assert_regular_bins, Spectrum._get_bin_widths"]}
{"id": "C82", "title": "DOS maps are DOS rows", "statement": "Row q of calculate_dos_map is the DOS of that q-point alone, and the weighted mean of the rows is calculate_dos of the whole set.", "quantifier": "all q-points, weights, frequencies, bins and widths", "why_tests_cant": "all numbers of q-points and weight choices", "anchors": ["euphonic/qpoint_frequencies.py: calculate_dos_map, calculate_dos"]}
{"id": "C83", "title": "Structure factors keep the q-point weights", "statement": "The object returned by calculate_structure_factor has the same q-point weights as the modes it is computed from, so that calculate_1d_average and calculate_dos of it use them.", "quantifier": "all modes and weights", "why_tests_cant": "most tests use equal weights, for which the default is right", "anchors": ["euphonic/qpoint_phonon_modes.py: calculate_structure_factor"]}
{"id": "C84", "title": "A castep_bin file is read back exactly as written", "statement": "ForceConstants.from_castep on a file written record by record in the castep_bin layout (each record between two length markers, arrays in Fortran order, positions padded per species) returns the written data: lattice vectors, one position per atom in the order of the species brought into [0,1) by a lattice translation, masses and chemical symbols repeated for each atom of a species, supercell matrix, cell origins, force constants with element [cell, i, j] as computed for that pair, Born charges, and the dielectric tensor when Born charges are present. Unrelated records in between, a second unit cell block, and bytes behind the end mark have no influence; of repeated blocks the last one counts. A file without a force constants block raises RuntimeError.", "quantifier": "for all crystals (any number of species and atoms), supercell matrices with non-zero determinant, force constants, sets of unrelated records and trailing bytes", "why_tests_cant": "Tests read a handful of reference files; a transposed axis, a wrong padding offset or a species-order mistake shows up only for crystals with particular numbers of atoms per species or non-symmetric blocks.", "anchors": ["euphonic/readers/castep.py: read_interpolation_data, _read_cell, _read_entry", "euphonic/force_constants.py: ForceConstants.from_castep"]}
{"id": "C85", "title": "FORCE_CONSTANTS files are read back exactly; cut files are refused", "statement": "Reading a FORCE_CONSTANTS file with one 3x3 matrix for every pair of atoms (compact or full, header with one or two numbers) gives the matrices row by row in the order of the file; a file that ends at any earlier line raises ValueError.", "quantifier": "all numbers of atoms and cells, all matrices, all cut points", "why_tests_cant": "all sizes; the number of rows asked for and the shape interact", "anchors": ["euphonic/readers/phonopy.py: _extract_force_constants, _check_fc_shape"]}
{"id": "C86", "title": "BORN files are read back exactly", "statement": "Reading a BORN file gives its dielectric tensor, its Born charges in order and its factor (absent if the file has none) wherever comments are placed; a line that has not nine numbers behind the dielectric tensor raises ValueError.", "quantifier": "all tensors, numbers of atoms, placements of comments", "why_tests_cant": "all placements of comments", "anchors": ["euphonic/readers/phonopy.py: _extract_born"]}
{"id": "C87", "title": "Denominators of Phonopy force constant units are divided by as a whole", "statement": "A unit num/d1/.../dk in a Phonopy summary is handed to the unit parser as num/(d1)/.../(dk).", "quantifier": "all unit strings with at least one denominator", "why_tests_cant": "all strings", "anchors": ["euphonic/readers/phonopy.py: _extract_summary"]}
{"id": "C88", "title": "Phonopy supercell atoms are mapped to the primitive atoms the file names", "statement": "For every atom of the supercell pc_to_sc_atom_idx[sc_to_pc_atom_idx[i]] is the atom the summary reduces it to (counted from zero); primitive atoms appear once each in increasing order; two atoms share a primitive atom exactly if they are reduced to the same atom.", "quantifier": "all lists of reduced_to entries", "why_tests_cant": "all lists", "anchors": ["euphonic/readers/phonopy.py: _extract_summary, _extract_crystal_data"]}
{"id": "C89", "title": "Phonopy supercell matrix and positions describe the supercell of the file", "statement": "sc_matrix takes the primitive cell vectors to the supercell vectors, and atom positions in fractions of the supercell are converted to fractions of the primitive cell describing the same points, for every supercell matrix (Phonopy convention: columns).", "quantifier": "all unit cells, supercell and primitive matrices with integral ratio", "why_tests_cant": "continuous and integer data; test files only have diagonal supercell matrices", "anchors": ["euphonic/readers/phonopy.py: _extract_summary"]}
{"id": "C90", "title": "Calculated modes solve the equations of motion", "statement": "For every mode returned, the displacements u_k = e_k / sqrt(m_k) built from the eigenvector satisfy sum_j D(k,j) u_j = lambda m_k u_k where D is the (not mass weighted) dynamical matrix including the corrections that were switched on and lambda is the signed square of the frequency.", "quantifier": "all force constants, masses, q-points and correction options", "why_tests_cant": "continuous data; tests compare with stored reference frequencies", "anchors": ["euphonic/force_constants.py: _calculate_dyn_mat, _mass_weight_dyn_mat, _calculate_phonons_at_q"]}
{"id": "C91", "title": "Broadening kernels have the requested width", "statement": "A single peak on a regular axis broadened with a width w becomes a peak whose full width at half maximum is w, for Gaussian and Lorentzian shapes, whether the width is given as a quantity or as a function.", "quantifier": "all regular axes, widths, peak positions and heights", "why_tests_cant": "tests compare with stored output of the same code", "anchors": ["euphonic/spectra.py: Spectrum._broaden_data, _gfwhm_to_sigma, _distribution_1d, _get_dist_bins", "euphonic/broadening.py: variable_width_broadening"]}
{"id": "C92", "title": "A smaller permitted interpolation error gives closer kernels", "statement": "For every accepted width_interpolation_error the kernel widths used by variable-width broadening grow by a factor above one, and a smaller error gives a strictly smaller factor, for every shape and fit.", "quantifier": "all errors, shapes and fits", "why_tests_cant": "continuous parameter; tests use one or two errors", "anchors": ["euphonic/broadening.py: _get_spacing"]}
{"id": "C93", "title": "The lower limit of a width function bounds the width it returns", "statement": "In variable-width broadening a width at or above width_lower_limit is used as the function gives it, and a smaller one is replaced by the limit, for all shapes and conventions; impossible conventions raise.", "quantifier": "all widths, limits, shapes and conventions", "why_tests_cant": "continuous parameters; tests do not combine the default convention with a limit", "anchors": ["euphonic/broadening.py: variable_width_broadening"]}
{"id": "C94", "title": "The |q| bins of a powder map cover the requested range with equal bins no wider than asked for", "statement": "For every q_min < q_max and every positive spacing the |q| bin edges of euphonic-powder-map run exactly from q_min to q_max, all bins are equally wide and not wider than the requested spacing, and no fewer equal bins would do.", "quantifier": "all ranges and spacings", "why_tests_cant": "continuous parameters; tests use a few ranges", "anchors": ["euphonic/cli/powder_map.py: main"]}
{"id": "C95", "title": "Corrections do not depend on the order of the cell vectors", "statement": "Describing the same crystal with the three cell vectors listed in another order (fractional coordinates and q-points permuted along) leaves the dipole-dipole part of the dynamical matrix and the LO-TO correction at gamma unchanged; in particular they do not depend on whether the cell is right- or left-handed.", "quantifier": "all crystals, Born charges, dielectric tensors, q-points, splitting directions, permutations of the cell vectors", "why_tests_cant": "The reference data all use right-handed cells; a test compares a few structures, not all cells and orders of the vectors.", "anchors": ["euphonic/force_constants.py: ForceConstants._calculate_dipole_correction", "euphonic/force_constants.py: ForceConstants._calculate_gamma_correction", "euphonic/crystal.py: Crystal.cell_volume", "euphonic/util.py: _cell_vectors_to_volume"]}
{"id": "C96", "title": "Scaling a spectrum in place affects only that spectrum", "statement": "`spec *= k` changes the data of `spec` and nothing else: neither quantities read from it earlier, nor other spectra, even if data were assigned from one spectrum to another; `spec * k` changes no existing object at all and holds the scaled data.", "quantifier": "all spectra, factors, units, histories of copies, assignments and reads", "why_tests_cant": "Sharing of arrays depends on the history of the objects and on whether a unit conversion happened; tests look at a few histories.", "anchors": ["euphonic/spectra.py: Spectrum.__imul__", "euphonic/spectra.py: Spectrum.__mul__", "euphonic/spectra.py: Spectrum.y_data"]}
{"id": "C97", "title": "A .phonon file is read completely or not at all", "statement": "For every .phonon file of the documented layout, with any spacing, any number of skipped header lines, q-point blocks with or without a direction and extra columns, from_castep returns exactly the numbers printed: cell, atoms, q-points, weights, frequencies by branch and eigenvectors by branch and atom, in the order of the file. A file cut off before its end is refused, and reading always ends.", "quantifier": "all numbers of atoms, branches, q-points and blocks, all spacings, all cut positions", "why_tests_cant": "Tests read a handful of files; they cannot cover all layouts, spacings or positions at which a file can be truncated.", "anchors": ["euphonic/readers/castep.py: read_phonon_data", "euphonic/readers/castep.py: _read_crystal_info", "euphonic/readers/castep.py: _read_frequency_block", "euphonic/qpoint_phonon_modes.py: QpointPhononModes.from_castep"]}
{"id": "C98", "title": "A .phonon_dos file gives each species its own column", "statement": "For every .phonon_dos file of the documented layout the reader returns crystal, q-points, weights, frequencies, mode gradients, energies and the total and partial densities of states exactly as printed; Spectrum1D.from_castep_phonon_dos(element=s) is the column headed s, the collection has a labelled line for the total and each species, unknown elements raise KeyError, and incomplete files are refused.", "quantifier": "all numbers of atoms, species, branches, q-points and bins, all orders of the columns, all cut positions", "why_tests_cant": "Tests read two files; the order of columns, the number of bins and truncation positions are unbounded.", "anchors": ["euphonic/readers/castep.py: read_phonon_dos_data", "euphonic/spectra.py: Spectrum1D.from_castep_phonon_dos", "euphonic/spectra.py: Spectrum1DCollection.from_castep_phonon_dos"]}
{"id": "C99", "title": "Reference data are returned complete", "statement": "get_reference_data(collection, property) returns every number of the named table under its name and in the unit of the table, leaves out text and missing values, and raises ValueError for unknown collections, properties or units.", "quantifier": "all data files of the documented layout, all tables, names, units and values", "why_tests_cant": "Tests look at a few species of the two shipped files; a number whose notation (39 instead of 39.0) makes it vanish is found only by quantifying over entries.", "anchors": ["euphonic/util.py: get_reference_data", "euphonic/util.py: custom_decode", "euphonic/data/bluebook.json"]}
{"id": "C100", "title": "Neutron-weighted PDOS uses the cross-section of each atom's species", "statement": "calculate_pdos weights every atom with the cross-section of its species from the chosen collection or dictionary, converted to millibarn, with coherent and incoherent values added for coherent-plus-incoherent; quantities that are not areas are refused, and without a weighting a named collection is not read. Any crystal whose species all have values is accepted.", "quantifier": "all crystals, all tables, all units of area, all weightings", "why_tests_cant": "Tests use three crystals with one data source; the mapping from atoms to table entries, unit conversion and acceptance concern all species and all tables.", "anchors": ["euphonic/qpoint_phonon_modes.py: QpointPhononModes.calculate_pdos", "euphonic/util.py: get_reference_data"]}
{"id": "C101", "title": "euphonic-dos uses every given width exactly once", "statement": "In euphonic-dos, --energy-broadening is another name of --adaptive-scale (one value with --adaptive) or of --instrument-broadening (otherwise); giving a width under both names is refused; --adaptive needs force constants and weighted or partial DOS need eigenvectors (TypeError otherwise); an instrumental width enters the result exactly once, and --adaptive-scale multiplies the widths obtained from the gradients.", "quantifier": "all combinations of options, all frequencies, gradients, weights and bins", "why_tests_cant": "Tests try some combinations of options; the claim is about all combinations and about the values produced.", "anchors": ["euphonic/cli/dos.py: main", "euphonic/cli/utils.py: _get_cli_parser"]}
{"id": "C102", "title": "The instrumental width of euphonic-dos is a full width at half maximum", "statement": "The width given by --instrument-broadening (or its alias) is the full width at half maximum of the Gaussian an isolated mode is broadened to, with and without --adaptive.", "quantifier": "all widths, bins, frequencies and weights", "why_tests_cant": "Tests compare with stored output; a wrong factor between standard deviation and full width is reproduced by stored output.", "anchors": ["euphonic/cli/dos.py: main", "euphonic/qpoint_frequencies.py: QpointFrequencies.calculate_dos", "euphonic/cli/utils.py: _get_cli_parser"]}
{"id": "C103", "title": "Broadening a map broadens its cuts, one axis independently of the other", "statement": "Broadening a 2-D spectrum along one axis with a width function gives the map whose cuts along that axis are broadened as 1-D spectra (and is refused where they are); broadening along both axes in one call equals broadening along one and then along the other, in either order, for every combination of fixed widths and functions; the result is a new object.", "quantifier": "all maps, axes (bin edges or centres), width functions, fixed widths, shapes and conventions", "why_tests_cant": "tests compare a few maps with stored output of the same code; the claims relate several calls for all maps and functions", "anchors": ["euphonic/spectra.py: Spectrum2D.broaden, Spectrum2D._broaden_spectrum2d_with_function, Spectrum1D.broaden", "euphonic/broadening.py: variable_width_broadening"]}
{"id": "C104", "title": "Broadening a collection broadens each of its spectra", "statement": "Every spectrum of a broadened 1-D collection is the corresponding spectrum of the collection broadened alone with the same arguments, for fixed widths and for functions, and a collection is refused with the same error as its spectra.", "quantifier": "all collections with at least one spectrum, axes, widths, functions, shapes and methods", "why_tests_cant": "two separate code paths have to agree with the single-spectrum code for all inputs", "anchors": ["euphonic/spectra.py: Spectrum1DCollection.broaden, Spectrum1D.broaden, Spectrum._broaden_data"]}
{"id": "C105", "title": "The formats of Phonopy phonon files agree", "statement": "QpointPhononModes.from_phonopy and QpointFrequencies.from_phonopy give the same q-points, frequencies, eigenvectors, atoms and cell for the same calculation written as mesh/band/qpoints YAML, as mesh/qpoints HDF5 or as band HDF5 (where segments and modes are stored in another layout). A crystal in the phonon file takes priority over the summary file and is read in angstrom and amu; otherwise the crystal and units of the summary are used, and a summary with another number of atoms raises ValueError. Wanted eigenvectors that are missing raise RuntimeError; frequencies can be read without them.", "quantifier": "all numbers of atoms and q-points, all values, all partitions of the path into segments", "why_tests_cant": "tests compare a few files of a few materials; the reshapes and transposes can agree by accident for special sizes", "anchors": ["euphonic/readers/phonopy.py: _extract_phonon_data_yaml, _extract_phonon_data_hdf5, read_phonon_data, convert_eigenvector_phases"]}
{"id": "C106", "title": "Lines are drawn completely and broken only at equal x", "statement": "plot_1d_to_axis draws every point of every line exactly once and in order, joins neighbouring points exactly if their x values differ, gives all pieces of a line the same colour (the next of the colour cycle, or the one asked for), labels only the first piece with the label asked for or the one in the metadata, sets the limits of the axis to the smallest and largest x and puts the ticks at the labelled points. A wrong number of labels raises ValueError.", "quantifier": "all numbers of lines and points, all values, labels and ticks", "why_tests_cant": "tests compare a few figures; breaks can be at any set of positions including neighbouring ones", "anchors": ["euphonic/plot.py: plot_1d_to_axis, _set_x_tick_labels"]}
{"id": "C107", "title": "Subplots share scales", "statement": "In figures with several subplots (plot_1d, plot_2d) the widths are proportional to the extents of the x axes, line i has the same colour everywhere, images show the intensity of bin (i, j) at column i and row j, and equal intensities have equal colours in all images, the range of colours being that of all maps. Lines in different units are refused.", "quantifier": "all lists of spectra, all sizes, values and units", "why_tests_cant": "tests look at a few figures with equal units", "anchors": ["euphonic/plot.py: plot_1d, plot_2d, plot_2d_to_axis, _get_gridspec_kw"]}
{"id": "C108", "title": "A Brille interpolator reproduces the force constants at the points of its grid", "statement": "A BrilleInterpolator made with from_force_constants gives, at the points of its grid, exactly the frequencies (converted from hartree to meV) and eigenvectors that ForceConstants.calculate_qpoint_phonon_modes gives there with insert_gamma and reduce_qpts off, whatever the caller asked for those two and with all other interpolation_kwargs as given. At any q-points calculate_qpoint_frequencies and calculate_qpoint_phonon_modes give the same frequencies, eigenvector component (atom l, direction m) is component 3l+m of what Brille returns, and the caller's arguments reach Brille unchanged (all processors if none are given). grid_kwargs are used as given; otherwise the grid cells fill the irreducible zone grid_npts times, a grid_density means the number of points it gives in the irreducible zone, and an unknown grid_type raises ValueError. Grids with arrays of other shapes are refused.", "quantifier": "all numbers of atoms and q-points, all force constants, all grids and interpolation routines that are exact at grid points, all keyword arguments", "why_tests_cant": "Brille is an optional dependency and the tests compare interpolated values with a tolerance on a few crystals; a wrong axis order or dropped argument at other sizes would be hidden by the interpolation error.", "anchors": ["euphonic/brille.py:BrilleInterpolator.from_force_constants", "euphonic/brille.py:BrilleInterpolator._br_grid_calculate_phonons", "euphonic/brille.py:BrilleInterpolator.__init__", "euphonic/brille.py:BrilleInterpolator.calculate_qpoint_phonon_modes", "euphonic/brille.py:BrilleInterpolator.calculate_qpoint_frequencies"]}
{"id": "C109", "title": "euphonic-dispersion draws the whole band structure", "statement": "For phonons read from a file or calculated from force constants along the recommended path, euphonic-dispersion draws every mode at every q-point exactly once, over the distance along the path, in order; puts every label at its q-point; and begins a new subplot exactly at the gaps (steps more than the given factor times the median step) or where neighbouring points of the path have different labels. Reordering needs eigenvectors and does not change the energies drawn at any q-point.", "quantifier": "All q-points, numbers of modes, frequencies, tolerances, labels and paths", "why_tests_cant": "Depends on all combinations of gaps, labels and lengths of pieces; tests draw a few files and check labels or colours of few lines.", "anchors": ["euphonic/cli/dispersion.py:main", "euphonic/cli/utils.py:_bands_from_force_constants", "euphonic/qpoint_frequencies.py:QpointFrequencies.get_dispersion", "euphonic/spectra.py:Spectrum.split", "euphonic/plot.py:plot_1d"]}
{"id": "C110", "title": "euphonic-intensity-map draws the whole map", "statement": "For phonons read from a file or calculated from force constants along the recommended path, euphonic-intensity-map draws the intensities at every q-point exactly once, at its distance along the path, in order, over the energy bins; with weighting dos the intensity of a bin is the number of modes of the q-point with an energy in it, such that each q-point has three modes together, per bin width; intensities are broadened as asked for with --q-broadening and --energy-broadening (several numbers being polynomial coefficients) and multiplied by --scale; every label is at its q-point, a new image begins exactly at the gaps or at breaks of the recommended path, and all images have the same colours. Coherent weighting needs eigenvectors, and with a temperature force constants; otherwise TypeError is raised.", "quantifier": "All q-points, numbers of modes, frequencies, energy limits, numbers of bins, tolerances, widths, scales, labels and paths", "why_tests_cant": "Depends on all combinations of gaps, labels, bins and widths; the tests compare a few files with stored pictures data and the extra broadening coefficients are never given.", "anchors": ["euphonic/cli/intensity_map.py:main", "euphonic/cli/utils.py:_bands_from_force_constants", "euphonic/cli/utils.py:_get_energy_bins", "euphonic/qpoint_frequencies.py:QpointFrequencies.calculate_dos_map", "euphonic/spectra.py:Spectrum2D.broaden", "euphonic/plot.py:plot_2d"]}
{"id": "C111", "title": "euphonic-powder-map draws the average over spheres", "statement": "For force constants, euphonic-powder-map covers the range of |q| by the fewest equal bins that are not wider than --q-spacing and the range of energy by --ebins equal bins; the intensities of a |q| bin are calculated from q-points which all lie on the sphere with the radius of the centre of the bin, as many as asked for with --npts or --npts-density within its limits: with weighting dos the number of modes in the bin per bin width, averaged over the q-points; otherwise the sum of the projected densities of the atoms, of the species named by --pdos only if it is given; or the structure factor. They are broadened in both directions as asked for (several numbers being polynomial coefficients), multiplied by --scale, and shown exactly in the bins that a neutron with the given incident or final energy and angle range can reach; colours range from the smallest to the largest intensity shown unless limits are given. Other data, contradicting options and empty ranges raise an error.", "quantifier": "All cells, frequencies, samplings, random numbers, ranges, numbers of bins and points, widths, energies and angles", "why_tests_cant": "The tests compare few runs with stored data; they cannot settle that all sampled points are on the sphere, that bins cover the range for every spacing, or that exactly the reachable bins are shown.", "anchors": ["euphonic/cli/powder_map.py:main", "euphonic/cli/powder_map.py:_get_broaden_kwargs", "euphonic/powder.py:sample_sphere_dos", "euphonic/powder.py:sample_sphere_pdos", "euphonic/powder.py:sample_sphere_structure_factor", "euphonic/spectra.py:apply_kinematic_constraints"]}
{"id": "C112", "title": "euphonic-optimise-dipole-parameter returns the fastest value", "statement": "The dipole parameters tried are those from the minimum upwards in equal steps that do not exceed the maximum, including the minimum and every multiple of the step up to the maximum; each is timed with one q-point (initialisation) and with n q-points, without reduction of equivalent q-points and with the other keyword arguments of the caller, and the time per q-point is the second time divided by n. The value returned is the first one with the least time per q-point, with its own times, and all values and times are returned in order. Other data, a zero step, an empty range and keywords that are set by the tool raise an error.", "quantifier": "All ranges, steps, numbers of q-points, keyword arguments and elapsed times", "why_tests_cant": "Elapsed times vary between runs; tests can only check the names and types of the entries returned.", "anchors": ["euphonic/cli/optimise_dipole_parameter.py:calculate_optimum_dipole_parameter"]}
{"id": "C113", "title": "euphonic-show-sampling shows points of the sampling chosen", "statement": "For every sampling scheme that can be chosen, euphonic-show-sampling draws points in the unit square, in the unit cube or on the unit sphere, in axes of two or three dimensions accordingly: exactly npts points, or for the regular grids the least number not below npts that is a square (regular-square) or twice a square (grids on the sphere). npts = 0, fewer than 3 points of the polar grid, fewer than 6 of the improved polar sampling and unknown names raise an error.", "quantifier": "All schemes, numbers of points and random displacements", "why_tests_cant": "The tests compare a few plots for small npts without jitter with stored data; where all points of all schemes lie for every number of points cannot be sampled.", "anchors": ["euphonic/cli/show_sampling.py:main", "euphonic/sampling.py:golden_square", "euphonic/sampling.py:regular_square", "euphonic/sampling.py:recurrence_sequence"]}
{"id": "C114", "title": "euphonic-brille-convergence compares like with like", "statement": "euphonic-brille-convergence draws, for each of the grid sizes or densities given and in that order, the difference between interpolated and Fourier-calculated frequencies, structure factors, average intensities and intensities at single q-points: both are calculated at the same quasi-random q-points of the unit cube, with the same energy bins and width, the grids are made with the keyword arguments of the Fourier calculation, and the single q-points are those after the first (which is Gamma). It finishes whenever all calculations do and have arrays of the same shape. Other data, a missing number of threads, a single grid size that is not in a list, and at least as many slices as q-points raise an error.", "quantifier": "All calculations, grids, numbers of q-points, bins and slices, widths and limits", "why_tests_cant": "Brille is an optional dependency and the tool is tested with two materials; that every panel pairs the same points and bins for all settings cannot be sampled.", "anchors": ["euphonic/cli/brille_convergence.py:check_brille_settings", "euphonic/cli/brille_convergence.py:plot_to_intensity_axes", "euphonic/cli/utils.py:_brille_calc_modes_kwargs"]}
{"id": "C115", "title": "Labels of the q-axis without known symmetry spell the coordinates", "statement": "Where the symmetry of the crystal is not known (no atoms, or seekpath finds none) the labels of q-points are taken from 512 different texts, each of which spells the three coordinates it stands for. A q-point has such a label exactly if each coordinate is, up to an integer and the tolerance of numpy.allclose, one of 0, 1/4, 3/4, 1/2, 1/3, 2/3, 3/8, 5/8, and the label spells these in the order of the coordinates. Otherwise the labels of seekpath are used, and other errors of seekpath are errors. Each tick has the label of its q-point, with a Greek letter for GAMMA, or, if no tick would have a label, the coordinates; there is one position on the axis for each q-point and ticks at the first and the last. (Labels of seekpath are tried on cyclic permutations of the coordinates, also where the lattice has no such symmetry.)", "quantifier": "All q-points, crystals and tables of labels", "why_tests_cant": "The tests compare the labels of a few paths; that no two fractions share a label and that no coordinates are exchanged must hold for all 512 combinations and all integers added.", "anchors": ["euphonic/util.py:get_qpoint_labels", "euphonic/util.py:_get_qpt_label", "euphonic/util.py:_generic_qpt_labels", "euphonic/util.py:_calc_abscissa"]}
{"id": "C116", "title": "The sum of two spectra", "statement": "Adding two Spectrum1D on the same axis with the same units gives a spectrum on that axis with the sum of the values at each point, the tick labels of the first and exactly the metadata on which both agree; the order of the terms does not matter for values and metadata. Spectra on other axes, with other units or other numbers of values are refused.", "quantifier": "All spectra, metadata and axes", "why_tests_cant": "The tests add one pair of spectra; which metadata remain and which pairs are refused depends on all pairs.", "anchors": ["euphonic/spectra.py:Spectrum1D.__add__", "euphonic/spectra.py:Spectrum1DCollection.from_spectra", "euphonic/spectra.py:Spectrum1DCollection.sum"]}
{"id": "C117", "title": "Text files of spectra contain all data in order", "statement": "Reading a text file written by to_text_file line by line, the comments give the units of the axis and of the values, the common metadata, and for each further column its number, the index of its line and that line's own metadata; the rest has one line for each point or bin in order, with the position (the middle of a bin) and the values of all lines there in order, each in the format given for its column. The file of a single spectrum has two columns and all metadata in the common part. Another number of formats than columns raises an error.", "quantifier": "All well-formed spectra and collections, formats without spaces, hashes and line breaks, metadata whose JSON is one line", "why_tests_cant": "The tests compare one file with stored text; that no column, line or metadata can be exchanged or lost must hold for all sizes, and for bins as for points.", "anchors": ["euphonic/spectra.py:Spectrum1D.to_text_file", "euphonic/spectra.py:Spectrum1DCollection.to_text_file"]}
{"id": "C118", "title": "Any memory layout of the arrays gives the same numbers to the C extension", "statement": "Whatever the memory order (row-major, column-major, strided views) and the precision of the arrays that make up the force constants and the arguments, the numbers that the C extension reads are the numbers of the arrays, in row-major order; the arrays seen from Python do not change their values. A call fails beforehand only if a required attribute is missing.", "quantifier": "All shapes, strides, offsets and element types of all arrays", "why_tests_cant": "The tests use arrays as the readers make them, which are nearly all contiguous doubles; users can construct objects from any arrays, and a wrong layout gives wrong numbers without an error.", "anchors": ["euphonic/validate.py:_ensure_contiguous_attrs", "euphonic/validate.py:_ensure_contiguous_args", "euphonic/force_constants.py:ForceConstants._calculate_phonons_at_qpts", "c/_euphonic.c:calculate_phonons"]}
{"id": "C119", "title": "The C extension stays within its arrays", "statement": "For each q-point the C extension reads and writes only elements of the arrays it is given or allocates: all positions of elements of force constants, images, cell origins, eigenvectors, gradients, dipole data and corrections can be computed in 32-bit integers and are smaller than the sizes of these arrays.", "quantifier": "All numbers of atoms, cells, images, q-points, reciprocal vectors, with and without dipole corrections, gradients, eigenvectors", "why_tests_cant": "An access beyond an array need not fail, and sizes for which integers overflow need more memory than tests have.", "anchors": ["c/dyn_mat.c:calculate_dyn_mat_at_q", "c/dyn_mat.c:calculate_dipole_correction", "c/dyn_mat.c:calculate_gamma_correction", "c/dyn_mat.c:mass_weight_dyn_mat", "c/dyn_mat.c:calculate_mode_gradients", "c/_euphonic.c:calculate_phonons"]}
{"id": "C120", "title": "Results of the C extension do not depend on which q-points share a thread", "statement": "Frequencies, eigenvectors and mode gradients that the C extension writes for a q-point are those it writes when this q-point is calculated alone, whatever q-points the same thread has done before, in whatever order, and whatever its work arrays contain; frequencies and mode gradients are the same whether eigenvectors are kept or not.", "quantifier": "All lists of q-points given to a thread, all contents of its work arrays, with and without dipole corrections, splitting, acoustic sum rule, gradients and eigenvectors", "why_tests_cant": "Work arrays reused between q-points give wrong numbers only for particular sequences of q-points, which depend on the number of threads; comparing a few runs cannot exclude stale data.", "anchors": ["c/_euphonic.c:calculate_phonons", "c/dyn_mat.c:calculate_dyn_mat_at_q", "c/dyn_mat.c:diagonalise_dyn_mat_zheevd"]}
{"id": "C121", "title": "Failed diagonalisation is reported", "statement": "If the dynamical matrix of a q-point cannot be diagonalised, the calculation raises an exception, with the C extension as without it; otherwise both convert the same eigenvalues to the same frequencies.", "quantifier": "All lists of q-points, all outcomes of the LAPACK routine", "why_tests_cant": "The LAPACK routine does not fail for the materials of the tests.", "anchors": ["c/dyn_mat.c:diagonalise_dyn_mat_zheevd", "c/dyn_mat.c:evals_to_freqs", "c/_euphonic.c:calculate_phonons", "euphonic/force_constants.py:ForceConstants._calculate_phonons_at_q"]}
{"id": "C122", "title": "The C extension keeps reference counts and reports what is missing", "statement": "Each call of the C extension leaves the reference counts of all objects as they were, and raises an exception if an attribute or dictionary entry that it needs is missing.", "quantifier": "All force constants objects, all sets of attributes and entries present, with and without dipole corrections", "why_tests_cant": "Leaked references do not change any result, and undefined behaviour may look right.", "anchors": ["c/_euphonic.c:calculate_phonons", "c/py_util.c:attr_from_pyobj", "c/py_util.c:int_from_pyobj", "c/py_util.c:double_from_pydict", "c/py_util.c:val_from_pydict"]}
{"id": "C123", "title": "Every force constant is used, with its nearest images", "statement": "When force constants are interpolated, each pair of atoms of the supercell has at least one periodic image, all images that share its force constants are the nearest ones among all infinitely many periodic images (to the tolerance of the code), and so every force constant given enters the dynamical matrix: at q = 0 it is the plain sum of the force constants over the supercell.", "quantifier": "All supercells, all crystals, all force constants", "why_tests_cant": "The search is limited to two shells of supercells and compares with 26 neighbours only; whether that suffices depends on the shape of the supercell, of which tests have a few.", "anchors": ["euphonic/force_constants.py:ForceConstants._calculate_supercell_images", "euphonic/force_constants.py:ForceConstants._calculate_phonons_at_qpts", "euphonic/force_constants.py:ForceConstants._calculate_dyn_mat"]}
{"id": "C124", "title": "The C extension gives the same results as Python", "statement": "For every list of q-points and every combination of options, frequencies, eigenvectors and mode gradients calculated with the C extension are those calculated without it, at each position of the list.", "quantifier": "All force constants, all lists of q-points with repeated, equivalent and gamma points, all options, all distributions of q-points over threads", "why_tests_cant": "Tests compare the two for a few materials and q-points up to a tolerance that hides conjugated or transposed small terms; the chain of reduction, search of directions, packed triangular arrays and Fortran ordering has to fit for all sizes.", "anchors": ["euphonic/force_constants.py:ForceConstants._calculate_phonons_at_qpts", "euphonic/force_constants.py:ForceConstants._calculate_phonons_at_q", "c/_euphonic.c:calculate_phonons", "c/dyn_mat.c:diagonalise_dyn_mat_zheevd"]}
{"id": "C125", "title": "Plot options take effect over style sheets", "statement": "In the plotting scripts an option such as --line-width, --font, --figsize or --colormap takes effect whatever the style sheets say; a setting not given as an option has the value of the last of the user's style sheets that sets it, or of Euphonic's base style (unless --no-base-style), or Matplotlib's own.", "quantifier": "All combinations of options, all style sheets, all units of the size of the figure", "why_tests_cant": "Tests look at a few options with the base style; the precedence concerns every combination of options, sheets and base styles, and the result is a list whose effect is defined only by applying it in order.", "anchors": ["euphonic/cli/utils.py:_compose_style", "euphonic/styles.py:base_style"]}
{"id": "C126", "title": "Mode gradients are the derivatives of the frequencies", "statement": "The mode gradients reported with return_mode_gradients are the derivatives of the reported frequencies with respect to the Cartesian components of the wavevector: moving q by a small vector changes the frequency of each mode by the scalar product of that vector and the mode gradient.", "quantifier": "All force constants, crystals and q-points, all modes, all paths through the q-point, with and without dipole correction, real and imaginary frequencies", "why_tests_cant": "Tests compare with stored numbers or finite differences for a few materials whose frequencies are real; that the sum over images is the derivative of the dynamical matrix, and that eigenvalues move accordingly, is a statement of analysis over all matrices.", "anchors": ["euphonic/force_constants.py:ForceConstants._calculate_dyn_mat_gradient", "euphonic/force_constants.py:ForceConstants._calculate_phonons_at_q", "euphonic/force_constants.py:ForceConstants.calculate_qpoint_phonon_modes"]}
{"id": "C127", "title": "A command line that is accepted gives every tool the arguments that it reads", "statement": "The parser of every command-line tool can be set up. Whatever the command line: if it is accepted, all attributes that the tool reads are there, with values of the right kind (a number, one of the choices, a list of so many numbers, or None where that is allowed), and no others are passed on; options that exclude each other are never both in effect.", "quantifier": "All tools, all command lines (any number of strings, in any order, with abbreviations, attached values, '--'), all sets of features for which a parser can be asked", "why_tests_cant": "Tests run a few command lines for each tool; which attribute is missing or of the wrong kind depends on features, order, abbreviations, and optional values.", "anchors": ["euphonic/cli/utils.py:_get_cli_parser", "euphonic/cli/utils.py:get_args", "euphonic/cli/utils.py:_calc_modes_kwargs", "euphonic/cli/utils.py:_plot_label_kwargs", "euphonic/cli/dos.py:get_parser", "euphonic/cli/dispersion.py:get_parser", "euphonic/cli/intensity_map.py:get_parser", "euphonic/cli/powder_map.py:get_parser", "euphonic/cli/optimise_dipole_parameter.py:main", "euphonic/cli/brille_convergence.py:main", "euphonic/cli/show_sampling.py:get_parser"]}
{"id": "C128", "title": "What a command line says is what the tool gets", "statement": "A command line made of the file name and of options with valid values, in any order, is accepted; every attribute has the value that was given last for it, or else its default.", "quantifier": "All tools, all options, all values, all orders of options and file name", "why_tests_cant": "Tests put the file name first and try each option by itself; there are infinitely many combinations, and some orders fail.", "anchors": ["euphonic/cli/utils.py:_get_cli_parser", "euphonic/cli/utils.py:get_args"]}
{"id": "C129", "title": "At wavevectors that fit into the supercell the phonons are exact", "statement": "If a q-point fits into the supercell of the force constants (a plane wave has the same phase at both ends of each supercell vector), the dynamical matrix is the Fourier sum of the force constants and does not depend on how the force constants are shared among periodic images; every mode is a normal mode of the supercell with periodic boundary conditions, with the squared frequency as eigenvalue; and if no displacement of the atoms of the supercell lowers the harmonic energy, then no frequency at such a q-point is imaginary (negative in the output).", "quantifier": "all crystals, all supercell matrices, all force constants, all masses, all q-points that fit into the supercell, all displacements of the atoms", "why_tests_cant": "Tests compare frequencies of a few materials with reference data; that the interpolation adds nothing at these wavevectors for any structure and supercell, and that stability of the supercell carries over, quantifies over all force constants and displacements.", "anchors": ["euphonic/force_constants.py:ForceConstants.calculate_qpoint_phonon_modes", "euphonic/force_constants.py:ForceConstants._calculate_dyn_mat", "euphonic/force_constants.py:ForceConstants._calculate_supercell_images"]}
{"id": "C130", "title": "Three acoustic modes at the gamma point have zero frequency", "statement": "Force constants that are invariant under translations of the whole crystal give at least three modes of frequency zero at the gamma point and at all reciprocal lattice vectors, with and without the dipole-dipole correction; for other force constants, asr='reciprocal' and asr='realspace' achieve this up to a tolerance that does not depend on the force constants (reciprocal) or is at most 1e-8 of the eigenvalues of the force constant matrix (realspace).", "quantifier": "all crystals, supercells, force constants, masses, Born charges and dielectric tensors, and all eigensolvers that return orthonormal eigenvectors", "why_tests_cant": "Tests check a handful of materials within a tolerance; the claim counts modes for arbitrary force constants and atoms and any choice of eigenvectors in degenerate spaces.", "anchors": ["euphonic/force_constants.py:ForceConstants.calculate_qpoint_phonon_modes", "euphonic/force_constants.py:ForceConstants._enforce_reciprocal_asr", "euphonic/force_constants.py:ForceConstants._enforce_realspace_asr", "euphonic/force_constants.py:ForceConstants._calculate_dipole_correction"]}
{"id": "C131", "title": "Phonon results do not depend on how the crystal is described", "statement": "Frequencies, Debye-Waller factors and structure factors are properties of the crystal: they do not change if the whole crystal is rotated or mirrored, if the origin is moved, if the atoms are listed in another order or given by other of their copies, if other cell vectors of the same lattice or other supercell vectors of the same superlattice are chosen, or if the cells of the supercell are listed in another order or represented by other cells; the wavevector is the same in space, and eigenvectors are rotated, permuted and multiplied by phases accordingly. This holds with and without the acoustic sum rule.", "quantifier": "all crystals, supercells, force constants, masses and wavevectors; all changes of the description; all eigensolvers", "why_tests_cant": "Tests compare with stored results for one description of each material; the claim relates two runs on different inputs, for all crystals and all ways to describe them.", "anchors": ["euphonic/force_constants.py:ForceConstants.calculate_qpoint_phonon_modes", "euphonic/force_constants.py:ForceConstants._calculate_supercell_images", "euphonic/force_constants.py:ForceConstants._enforce_reciprocal_asr", "euphonic/qpoint_phonon_modes.py:QpointPhononModes.calculate_debye_waller", "euphonic/qpoint_phonon_modes.py:QpointPhononModes.calculate_structure_factor"]}
{"id": "C132", "title": "Frequencies at symmetry-equivalent wavevectors are equal", "statement": "If a symmetry operation of the crystal leaves the force constants as they are, the frequencies calculated at a wavevector and at the wavevector it is moved to by the operation are equal, whatever the images of the supercell that are found for the pairs of atoms.", "quantifier": "all crystals, symmetry operations, supercells compatible with them, force constants, masses, wavevectors and eigensolvers", "why_tests_cant": "Symmetry of the result is a relation between runs at different wavevectors; tests have a few materials and wavevectors, and the images found differ between equivalent pairs of atoms.", "anchors": ["euphonic/force_constants.py:ForceConstants.calculate_qpoint_phonon_modes", "euphonic/force_constants.py:ForceConstants._calculate_supercell_images", "euphonic/crystal.py:Crystal.get_symmetry_equivalent_atoms"]}
{"id": "C133", "title": "Small changes of force constants or wavevectors give small changes of frequencies", "statement": "Changing the force constants used (those after a real-space sum rule), with the same crystal, supercell and correction terms, changes every squared frequency, in order, by at most the largest sum over one row of the changes divided by the square roots of the masses; so the frequencies themselves, also those reported as negative, change by at most the square root of twice that. Without the dipole correction the squared frequencies at two wavevectors differ by at most a constant times the distance of the wavevectors, and along every continuous path of wavevectors every frequency, in order, is continuous; the acoustic sum rule does not destroy this.", "quantifier": "for all crystals, supercells, force constants, masses, wavevectors, paths, and all functions eigh that return orthonormal eigenvectors and sorted eigenvalues", "why_tests_cant": "A test compares frequencies at a few points; a bound on the difference for all changes, and continuity where bands cross or become imaginary, is a statement about uncountably many inputs.", "anchors": ["euphonic/force_constants.py:ForceConstants.calculate_qpoint_phonon_modes", "euphonic/force_constants.py:ForceConstants._calculate_phonons_at_qpt", "euphonic/force_constants.py:ForceConstants._calculate_dyn_mat", "euphonic/force_constants.py:ForceConstants._mass_weight_dyn_mat"]}
{"id": "C134", "title": "Populations and Debye-Waller exponents grow with temperature and have the right limits", "statement": "The population factor of a mode never decreases when the temperature rises, and grows strictly from every positive temperature; it tends to its value at temperature zero when the temperature tends to zero, and to kT/E when the temperature tends to infinity. The Debye-Waller exponents at a higher temperature minus those at a lower temperature are positive semidefinite for every atom, the exponents tend to those calculated at temperature zero, and, without symmetrisation and with all frequencies at or above frequency_min, divided by the temperature they tend to those of classical mean-square displacements.", "quantifier": "for all crystals, modes, weights that are not negative, temperatures, frequency_min > 0, sizes of chunks and symmetry operations", "why_tests_cant": "Tests take one or two temperatures. The code uses different formulas at zero temperature and above; that they are limits of each other is a statement about all temperatures near zero.", "anchors": ["euphonic/structure_factor.py:StructureFactor._bose_factor", "euphonic/structure_factor.py:StructureFactor.calculate_sqw_map", "euphonic/qpoint_phonon_modes.py:QpointPhononModes.calculate_debye_waller"]}
{"id": "C135", "title": "Sum rule: the first moment of S(Q,w) is the recoil energy of the free atoms", "statement": "For modes with orthonormal eigenvectors and frequencies different from zero the sum over all modes of frequency times structure factor at Q is Q^2/(2 n_atoms) times the sum over atoms of |b|^2 exp(-2W)/M (scattering lengths b may be complex): it does not depend on frequencies or eigenvectors, so two sets of force constants of the same crystal give the same number. With population factors of any temperature, energy gain counted negative, the sum is the same. The first moment of a row of the S(Q,w) map, calculated with the centres of the bins, is that number up to half a bin width times the total intensity, if the bins cover all modes on both sides.", "quantifier": "for all crystals, modes, scattering lengths, Debye-Waller exponents, temperatures and strictly increasing bins", "why_tests_cant": "The sum rule ties together eigenvectors, masses, prefactors, phases, populations and binning; a test on reference data would agree with data produced with the same wrong prefactor.", "anchors": ["euphonic/qpoint_phonon_modes.py:QpointPhononModes.calculate_structure_factor", "euphonic/structure_factor.py:StructureFactor.calculate_sqw_map", "euphonic/structure_factor.py:StructureFactor._bose_factor"]}
{"id": "C136", "title": "Debye-Waller exponents from symmetry-reduced wavevectors are those of the full set", "statement": "calculate_debye_waller(symmetrise=True) on one wavevector of each set of symmetry-equivalent ones, weighted with the size of the set, returns the same matrices for every atom as symmetrise=False on the full set with equal weights; equivalence may include reciprocal lattice vectors and reversal of the wavevector. On a set that the operations only exchange, symmetrise makes no difference. Nothing is raised if the operations are symmetries and like atoms are further apart than the tolerance.", "quantifier": "all crystals with force constants, all symmetry operations that leave them unchanged, all sets of wavevectors, temperatures, frequency cut-offs, eigenvectors chosen within degenerate modes and chunk sizes", "why_tests_cant": "Tests compare a few shipped materials within tolerances; rotations, exchanged atoms, degenerate eigenvectors and orbit weights must work together for every symmetry and grid.", "anchors": ["euphonic/qpoint_phonon_modes.py:QpointPhononModes.calculate_debye_waller", "euphonic/crystal.py:Crystal.get_symmetry_equivalent_atoms"]}
{"id": "C137", "title": "Densities of states from symmetry-reduced wavevectors are those of the full set", "statement": "If the wavevectors are a symmetry-reduced set, each weighted with the number of wavevectors it stands for, then calculate_dos and calculate_pdos (with or without neutron weighting) give the densities of states of the full set: in total, for each species, and for each atom. (The last does not hold: without symmetrisation equivalent atoms can get different lines, and only the mean over the symmetry operations is that of the full set.)", "quantifier": "all crystals, force constants, lists of symmetry operations, full and reduced sets of wavevectors, bins and cross-sections", "why_tests_cant": "A test compares one crystal on one grid within a tolerance of binned spectra; that the reduced set stands for the full one for any symmetry, and that it does not for single atoms, is a statement about all of them.", "anchors": ["euphonic/qpoint_frequencies.py:QpointFrequencies.calculate_dos", "euphonic/qpoint_phonon_modes.py:QpointPhononModes.calculate_pdos", "euphonic/force_constants.py:ForceConstants.calculate_qpoint_phonon_modes"]}
{"id": "C138", "title": "Results do not depend on the number of primitive cells in the chosen unit cell (band folding)", "statement": "Take force constants of a crystal, and the same crystal and force constants written down in a larger unit cell that holds several copies of the smaller one (conventional instead of primitive cell, or a plain multiple), with the same supercell. Interpolation at a wavevector of the larger cell gives exactly the frequencies, with multiplicities, that the smaller cell has at all the wavevectors folded onto it. Consequently total densities of states and those per species are the same on corresponding grids; the partial density of states of each copy is that of the original divided by the number of copies; Debye-Waller exponents of each copy are those of the original; one-phonon structure factors per atom at the same scattering vector are the same (sum over modes of equal frequency), so that the additional folded modes carry no intensity.", "quantifier": "for all crystals, integer cell transformations with non-zero determinant, arrangements of atoms and cells of the larger description, supercells (reduced), force constants with the symmetry of exchange, wavevectors, weights, temperatures, bins, scattering lengths and all choices of eigenvectors by the eigensolver", "why_tests_cant": "tests compare a few stored materials, each in one cell; that any two consistent descriptions agree relies on images, phases, mass weighting and normalisation being consistent for all of them at once", "anchors": ["euphonic/force_constants.py:ForceConstants.calculate_qpoint_phonon_modes", "euphonic/force_constants.py:ForceConstants._calculate_dyn_mat", "euphonic/force_constants.py:ForceConstants._calculate_supercell_images", "euphonic/qpoint_phonon_modes.py:QpointPhononModes.calculate_structure_factor", "euphonic/qpoint_phonon_modes.py:QpointPhononModes.calculate_debye_waller", "euphonic/qpoint_phonon_modes.py:QpointPhononModes.calculate_pdos", "euphonic/qpoint_frequencies.py:QpointFrequencies.calculate_dos"]}
{"id": "C139", "title": "Command lines mean what they say", "statement": "For each command-line tool, a command line on which every option is written in full, abbreviated without ambiguity, as --option=value or as -ovalue, with values it can have, without options that exclude each other, and with the positional arguments before, between or after the options or after --, is accepted. It gives every positional argument its value, and every other attribute the value given by the last option that sets it, or the default of the first option that could set it. With positional arguments only, every attribute has its documented default. A command line with an option that the tool does not have is refused.", "quantifier": "all parsers whose option strings are distinct and contain no '=', in particular those of the seven tools; all numbers and orders of options, positional arguments and values; all conversions int() and float()", "why_tests_cant": "There are infinitely many command lines; the tests run a few dozen of them, mostly with options written in full, and compare plots rather than the values of the options.", "anchors": ["euphonic/cli/utils.py: get_args, _get_cli_parser", "euphonic/cli/dos.py: get_parser", "euphonic/cli/dispersion.py: get_parser", "euphonic/cli/intensity_map.py: get_parser", "euphonic/cli/powder_map.py: get_parser", "euphonic/cli/optimise_dipole_parameter.py: get_parser", "euphonic/cli/brille_convergence.py: get_parser", "euphonic/cli/show_sampling.py: get_parser"]}
{"id": "C140", "title": "Averages over a sphere with default bins and temperatures", "statement": "sample_sphere_dos, sample_sphere_pdos and sample_sphere_structure_factor without energy_bins use a thousand equal bins from zero to 1.05 times the highest energy on the sphere, in the unit of the frequencies; with energy_bins they use those, in their unit. If the highest energy is positive, every mode whose energy is not negative is counted once, in the bin that contains it: the area of the density of states is 3 times the share of these modes (3 for a crystal without imaginary frequencies on the sphere, less with any), the partial densities add up to the density of states, and the area of the structure factor is the mean over the sphere of the sum of (1+n)S. If the highest energy is zero the density of states is zero, and if it is negative the bins descend and the density of states is negative. A temperature alone means the Debye-Waller factor of that temperature on the coarsest Monkhorst-Pack grid that respects dw_spacing, a Debye-Waller object brings its own temperature for the Bose factor, a different temperature beside it is refused (also the default of 273 K), and with neither there is neither a Debye-Waller nor a Bose factor.", "quantifier": "for all force constants (modes as functions of the q-point), spheres, samplings with or without jitter, bins, units and combinations of temperature and Debye-Waller object; for structure factors, frequencies that are not exactly zero.", "why_tests_cant": "Tests mock the functions that calculate modes and check calls, or compare one spectrum with stored numbers; that no mode is lost or counted twice concerns every crystal and sphere, and the behaviour for imaginary frequencies appears in no test.", "anchors": ["euphonic/powder.py:sample_sphere_dos", "euphonic/powder.py:sample_sphere_pdos", "euphonic/powder.py:sample_sphere_structure_factor", "euphonic/powder.py:_get_default_bins", "euphonic/structure_factor.py:StructureFactor.calculate_1d_average"]}
{"id": "C141", "title": "Force constants imported from Phonopy", "statement": "ForceConstants.from_phonopy gives the same result whatever units the calculation is written in (phonopy.yaml, FORCE_CONSTANTS and BORN written in other units with the numbers converted accordingly, including the NAC factor). The crystal is the primitive cell of the file with every atom moved by lattice vectors into the cell, masses and vectors converted. Each block between a representative atom and an atom of the supercell appears once, converted, between atoms of the right kinds and in a cell such that the vector between them, computed from the imported crystal, is the vector between the two atoms in the supercell, modulo the supercell; full and compact matrices mean the same. Charge times charge over volume times permittivity has the value Phonopy gives it, and the dielectric tensor in atomic units is the relative permittivity of the file if the NAC factor is the Coulomb constant. Missing unit names mean VASP units, the old and the new way of writing charges mean the same, a separate file of force constants or a BORN file counts as if its contents were in phonopy.yaml, charges without a factor are refused, and without charges there is no dielectric tensor.", "quantifier": "for all contents of the files, unit names, unit values, lattices, numbers of atoms, supercell matrices and force constants", "why_tests_cant": "Tests import files of four materials written with coordinates between 0 and 1 and compare with stored numbers of the same reader. The values of the reference data hide a shift common to both, and no file has coordinates outside the cell.", "anchors": ["euphonic/readers/phonopy.py:_extract_summary", "euphonic/readers/phonopy.py:_extract_crystal_data", "euphonic/readers/phonopy.py:read_interpolation_data", "euphonic/util.py:convert_fc_phases", "euphonic/force_constants.py:ForceConstants.from_phonopy"]}
{"id": "C142", "title": "How much intensity broadening keeps", "statement": "The kernels of both shapes have area one for every width. On a regular axis, a value broadened with a Gaussian whose standard deviation is not below the bin width keeps all of its area except what lies beyond the ends of the axis (or beyond half of its length), and the sum over the bins exceeds it by at most one part in 10^8; for a narrower Gaussian by at most 2/(exp(2 pi^2 (s/bw)^2) - 1). With a Lorentzian of full width g the sum over an axis without ends is exactly 1 + 2/(exp(pi g/bw) - 1), so up to a tenth more than the value when g is not below the bin width, and the loss at the ends is at most that of the arctangent tails. It follows that broadening with a constant width function, and mixing kernels for different widths, does not create intensity beyond these fractions.", "quantifier": "For every bin width, every width of the kernel, every number of bins, every position and every list of non-negative values; for different widths, for every fitted mixing polynomial between zero and one.", "why_tests_cant": "Tests compare a few broadened spectra with stored arrays; they cannot bound the change of the area for all widths and bins.", "anchors": ["euphonic/broadening.py:variable_width_broadening", "euphonic/broadening.py:width_interpolated_broadening", "euphonic/broadening.py:_lorentzian", "euphonic/spectra.py:Spectrum1D.broaden"]}
{"id": "C143", "title": "Results do not depend on the choice of eigenvectors for modes of equal frequency", "statement": "Let two sets of modes have the same q-points, weights and frequencies, and let the eigenvectors of the second be unitary combinations of those of the first that mix modes of equal frequency only. Then calculate_structure_factor fails for one exactly when it fails for the other, with the same error, and for every q-point and every frequency the structure factors of all modes at that frequency add up to the same number. calculate_sqw_map and calculate_1d_average of the two results are equal. calculate_debye_waller gives the same matrices, for every temperature, cutoff, chunk size and set of symmetry operations. calculate_pdos gives the same spectra. Any two conforming Hermitian diagonalisations of the same dynamical matrices give modes related in this way, so these results do not depend on the linear-algebra library. The structure factors of single modes of equal frequency do depend on the choice.", "quantifier": "for all crystals, numbers of modes, q-points, unitary combinations, scattering lengths, Debye-Waller exponents, bins, temperatures and conforming diagonalisations", "why_tests_cant": "a test runs one LAPACK build on a few crystals and compares with stored numbers; it cannot range over every basis of every degenerate subspace", "anchors": ["euphonic/qpoint_phonon_modes.py: QpointPhononModes.calculate_structure_factor", "euphonic/qpoint_phonon_modes.py: QpointPhononModes.calculate_debye_waller", "euphonic/qpoint_phonon_modes.py: QpointPhononModes.calculate_pdos", "euphonic/structure_factor.py: StructureFactor.calculate_sqw_map", "euphonic/structure_factor.py: StructureFactor.calculate_1d_average", "euphonic/force_constants.py: ForceConstants._calculate_phonons_at_q"]}
{"id": "C144", "title": "How frequencies respond to masses and to the strength of force constants", "statement": "With the same crystal, force constants, corrections (dipole, acoustic sum rule, LO-TO splitting) and wavevector but other positive masses: if every mass is divided by a factor between lo and hi, every reported frequency, in order, is multiplied by a factor between sqrt(lo) and sqrt(hi), so that heavier atoms never move a frequency away from zero and never change its sign; multiplying all masses with c divides all frequencies by sqrt(c); which modes (in order) are imaginary and which have frequency zero does not depend on the masses. With the same masses: force constants multiplied with c >= 0 multiply all frequencies at all wavevectors with sqrt(c); adding force constants that on their own have no imaginary modes at a wavevector does not lower any frequency there, whatever the corrections.", "quantifier": "for all numbers of atoms, positive masses, Hermitian matrices and corrections, force constants with exchange symmetry, supercells, wavevectors and conforming diagonalisations", "why_tests_cant": "tests compare frequencies of a few materials with stored values; isotope substitution and scaling laws over all crystals and wavevectors need a theorem on eigenvalues of the matrix the code builds", "anchors": ["euphonic/force_constants.py: ForceConstants.calculate_qpoint_phonon_modes", "euphonic/force_constants.py: ForceConstants._calculate_phonons_at_q", "euphonic/force_constants.py: ForceConstants._calculate_dyn_mat"]}
{"id": "C145", "title": "A crystal held together by springs has no imaginary frequencies", "statement": "Let the supercell be reduced and the force constants have the exchange symmetry. If for every two different atoms of the crystal the negative of their 3x3 block of force constants is symmetric and has no negative eigenvalues, and for every atom the sum of all its blocks (zero for translation invariant force constants) has none, then every frequency returned without corrections, at every wavevector and not only those that fit into the supercell, is real. Adding such force constants to any others lowers no frequency at any wavevector, also with corrections.", "quantifier": "for all numbers of atoms and cells, reduced supercells, spring-like force constants, positive masses, wavevectors and conforming diagonalisations", "why_tests_cant": "tests look at a few wavevectors of a few materials; that the sharing of force constants between equally near images never creates an instability at an interpolated wavevector is a statement about all of them", "anchors": ["euphonic/force_constants.py: ForceConstants.calculate_qpoint_phonon_modes", "euphonic/force_constants.py: ForceConstants._calculate_dyn_mat", "euphonic/force_constants.py: ForceConstants._calculate_supercell_images"]}
{"id": "C146", "title": "Scattering at opposite scattering vectors", "statement": "For modes at -Q that are the complex conjugates of those at Q (force constants are real), structure factors at -Q are those at Q calculated with the complex conjugate scattering lengths: with real scattering lengths they are the same, mode by mode, with and without Debye-Waller factors. From force constants, whatever eigenvectors are found for modes of equal frequency at Q and at -Q, frequencies are the same and structure factors of all modes of one frequency add up to the same value; S(Q,w) maps at any temperature and averages over wavevectors are the same, with and without the dipole correction. Debye-Waller exponents from opposite wavevectors are the same. For absorbing nuclei, whose tabulated scattering lengths are complex, structure factors at Q and -Q can differ, and do in a crystal without inversion symmetry.", "quantifier": "for all crystals, force constants, Born charges, wavevectors, scattering lengths, Debye-Waller exponents, eigensolvers, temperatures and bins", "why_tests_cant": "Wrong conjugation of eigenvectors, phases or scattering lengths shows only in crystals without inversion symmetry or with complex lengths, and in degenerate modes single values depend on the library.", "anchors": ["euphonic/qpoint_phonon_modes.py:QpointPhononModes.calculate_structure_factor", "euphonic/qpoint_phonon_modes.py:QpointPhononModes.calculate_debye_waller", "euphonic/structure_factor.py:StructureFactor.calculate_sqw_map", "euphonic/util.py:get_reference_data", "euphonic/data/sears-1992.json"]}
{"id": "C147", "title": "Complex mode gradients are reported before they are cast", "statement": "Mode gradients are computed as complex numbers and returned as their real parts, for each q-point those of its reduced q-point. A warning that data may have been lost is given exactly if an imaginary part is above 1e-10 times the largest absolute real part; it names the number of such elements, the size of the array, the first five indices in order with their imaginary parts, and the largest real part. Without a warning no imaginary part above this threshold has been dropped. Negative imaginary parts of any size are dropped without a warning. If the matrices are Hermitian, the gradients are real and there is no warning. With no q-points at all there is a ValueError.", "quantifier": "For all arrays of complex mode gradients, of any number of q-points and modes; for all systems with Hermitian matrices.", "why_tests_cant": "The tests check that one stored case gives a warning; they cannot show that every loss is reported, and the signed comparison shows that it is not.", "anchors": ["euphonic/force_constants.py:ForceConstants._calculate_phonons_at_qpts", "euphonic/force_constants.py:ForceConstants.calculate_qpoint_phonon_modes"]}
{"id": "C148", "title": "Where reordering matches modes, and that eigenvector phases do not matter", "statement": "QpointPhononModes.reorder_frequencies leaves the first q-point as it is. It matches the modes of every further q-point to those of the one before by their eigenvectors, except after a bend of the path and, with reorder_gamma=False, at gamma-equivalent points and the points after them: there the order of the previous q-point is taken over unchanged. Multiplying eigenvectors by arbitrary phases changes neither the order nor the frequencies returned.", "quantifier": "all paths of any length, all frequencies and eigenvectors, both values of reorder_gamma, all phases", "why_tests_cant": "the off-by-one positions of three index arrays have to be right for every arrangement of gamma points and corners; phases are a continuous family", "anchors": ["euphonic/qpoint_phonon_modes.py: QpointPhononModes.reorder_frequencies", "euphonic/util.py: direction_changed, is_gamma"]}
{"id": "C149", "title": "Reordering modes a second time changes nothing", "statement": "Calling reorder_frequencies on modes that have already been reordered leaves frequencies and eigenvectors as they are.", "quantifier": "all paths, numbers of modes and eigenvectors", "why_tests_cant": "the greedy choice goes through the overlaps in an order that depends on the numbering of the modes, which the first call changes; only ties reveal it", "anchors": ["euphonic/qpoint_phonon_modes.py: QpointPhononModes.reorder_frequencies"]}
{"id": "C150", "title": "Corners of a path get tick labels", "statement": "A q-point at which a path changes direction gets a tick label, however densely the path is sampled.", "quantifier": "all paths, all step lengths", "why_tests_cant": "tests use paths with some tens of points per segment; the criterion depends on the step length in a way that only shows beyond a threshold", "anchors": ["euphonic/util.py: get_qpoint_labels, _recip_space_labels, direction_changed"]}
{"id": "C151", "title": "Long-range corrections scale with lengths, charges and screening as Coulomb's law says", "statement": "If all lengths of a polar crystal are multiplied by s, its dielectric tensor by e and its Born charges by z, then the dipole correction of force constants calculated with the same dipole_parameter, and the correction for LO-TO splitting, are multiplied by exactly z^2/(e s^3) at every wavevector. The sums are cut off at the same cells and the same reciprocal lattice vectors.", "quantifier": "all crystals with any number of atoms, all positive s and e, all z, all wavevectors and all dipole parameters", "why_tests_cant": "the corrections are Ewald sums whose balance and cutoffs depend on the crystal; tests compare single crystals with stored numbers and never relate two crystals", "anchors": ["euphonic/force_constants.py:ForceConstants._dipole_correction_init", "euphonic/force_constants.py:ForceConstants._calculate_dipole_correction", "euphonic/force_constants.py:ForceConstants._calculate_gamma_correction"]}
{"id": "C152", "title": "Averages over sphere samplings approach the average over the sphere", "statement": "Take a quantity that depends on the direction of q without jumps (a Lipschitz function on the unit sphere). Its mean over the points that a sampling of the sphere yields approaches the average over the sphere, with the element of area sin(theta) dtheta dphi / 4 pi, as the number of points grows. For the golden sampling (the default of sample_sphere_dos, sample_sphere_pdos and sample_sphere_structure_factor), the projected grid and the improved polar sampling this is so with a bound on the error, with or without jitter and whatever the random numbers of the jitter are; for random points it is so with probability one, if the generator yields independent pairs uniform in the unit square. It is not so for sampling='spherical-polar-grid': its points are equally spaced in theta and are not weighted, and the mean of z^2 is 1/2 for every size of the grid where the average over the sphere is 1/3.", "quantifier": "all Lipschitz functions on the sphere, all numbers of points, all Fibonacci numbers in the bound of the golden sampling, all grids, all jitter, almost all random sequences", "why_tests_cant": "A test compares a mean at a few sizes with a reference value and a tolerance; it cannot show a limit, cannot range over all functions, and the bias of the polar grid does not show up in functions that happen to have the same average in both measures.", "anchors": ["euphonic/sampling.py:golden_sphere", "euphonic/sampling.py:sphere_from_square_grid", "euphonic/sampling.py:spherical_polar_grid", "euphonic/sampling.py:spherical_polar_improved", "euphonic/sampling.py:random_sphere", "euphonic/powder.py:_get_qpts_sphere"]}
{"id": "C153", "title": "For which arguments broadening works", "statement": "On axes of equal bins (at least two with a fixed width), broaden with a quantity works exactly if the shape is 'gauss' or 'lorentz' and the method is None or 'convolve', whatever the width; with a function it works exactly if the shape is one of the two, the width is a full width at half maximum or the standard deviation of a Gaussian, and the permitted error is in the range of the fit (10^-4 to 10^-1 for Gaussians, 10^-4 to 10^-1.35 for Lorentzians with 'cheby-log', any non-negative error for Gaussians with 'cubic'), whatever the values of the function, negative ones included. For maps each axis follows these rules. euphonic-dos with several coefficients is the density of states broadened with the polynomial, and fails only if --adaptive-error is out of range; euphonic-powder-map with at least two bins in each direction is drawn for all widths.", "quantifier": "All axes of equal bins of any number and width, data, width functions, quantities, shapes, methods, conventions, fits, errors from zero, positive or missing lower limits; all polynomials of the two programs.", "why_tests_cant": "Acceptance for every width function and axis, and refusal for every other setting, are universal statements; tests try a few functions and one refused error.", "anchors": ["euphonic/spectra.py:_broaden_data", "euphonic/spectra.py:Spectrum1D.broaden", "euphonic/spectra.py:Spectrum2D.broaden", "euphonic/broadening.py:variable_width_broadening", "euphonic/broadening.py:_get_spacing", "euphonic/cli/dos.py:main", "euphonic/cli/powder_map.py:main"]}
{"id": "C154", "title": "Which cells and reciprocal vectors the long-range sums contain", "statement": "The dipole correction sums over the cells (reciprocal vectors) of all sets with the same largest absolute component, from the origin (from one) up to, but not including, the first set that has no contribution above 10^-15 times the largest contribution of the first set, and at most up to 49; no cell or vector is used twice. For independent cell vectors and a positive definite dielectric tensor the 26 reciprocal vectors around the origin are always included.", "quantifier": "All crystals with any number of atoms, charges, dielectric tensors, parameters of the Ewald sum and functions in place of erfc; all cells and vectors.", "why_tests_cant": "The cut-off depends on the crystal; tests compare final frequencies of a few materials, in which a missing or additional outer set is not visible.", "anchors": ["euphonic/force_constants.py:ForceConstants._dipole_correction_init"]}
{"id": "C155", "title": "Averages over Monkhorst-Pack grids approach the average over the Brillouin zone", "statement": "The mean over the points of mp_grid((l, m, n)) of any quantity that varies continuously with the wavevector approaches its average over the Brillouin zone as l, m and n grow, however they grow; for a quantity whose change is at most L times the change of the fractional wavevector the error is at most L/2 (1/l + 1/m + 1/n). Waves exp(2 pi i q.R) are averaged exactly (to zero) unless l divides R_x, m divides R_y and n divides R_z, in which case they cannot be told from a constant. In particular averages of continuous functions of the frequencies that calculate_qpoint_phonon_modes returns on a grid converge.", "quantifier": "all continuous (or Lipschitz) functions of the wavevector, all grid sizes, all lattice vectors, all crystals with symmetric force constants in a reduced supercell", "why_tests_cant": "A limit over all grids and all functions; tests evaluate a few grids.", "anchors": ["euphonic/util.py:mp_grid", "euphonic/force_constants.py:ForceConstants.calculate_qpoint_phonon_modes", "euphonic/force_constants.py:ForceConstants.calculate_qpoint_frequencies"]}
{"id": "C156", "title": "Sum rule: the mean squared frequency is set by the on-site force constants", "statement": "On a Monkhorst-Pack grid finer than the supercell, the mean over the q-points of the sum of the squared frequencies (imaginary ones counted negative) is the sum over all atoms and directions of the on-site force constant over the mass of the atom, whatever the force constants between different atoms are; weighted with the displacements of one atom in two directions, it is the element of the on-site force constant matrix of that atom over its mass.", "quantifier": "all crystals, masses, symmetric force constants in a reduced supercell, all grids of which no nearest image of an atom is a multiple, all eigensolvers", "why_tests_cant": "An exact identity between results at all points of a grid for all force constants; a test compares numbers for one crystal.", "anchors": ["euphonic/util.py:mp_grid", "euphonic/force_constants.py:ForceConstants.calculate_qpoint_phonon_modes", "euphonic/force_constants.py:ForceConstants._calculate_dyn_mat"]}
{"id": "C157", "title": "dipole_parameter divides the long-range sum, it does not change what is summed", "statement": "The long-range correction for polar crystals is calculated as a sum over reciprocal vectors less a sum over cells, divided between the two by dipole_parameter. For every positive value both series converge absolutely. The correction calculated from the complete series is the same for every value; only the interaction of an atom with itself, the same at all q-points and cancelled by the acoustic sum rule, depends on it. The corrections calculated for two values of dipole_parameter therefore differ by terms left out of the series and by nothing else.", "quantifier": "all crystals with a right-handed cell, a symmetric positive definite dielectric tensor and no two atoms at the same place, all Born charges, all q-points, all positive values of dipole_parameter", "why_tests_cant": "An identity between infinite series for all crystals and all real values of a parameter; tests compare truncated sums of a few materials with stored numbers.", "anchors": ["euphonic/force_constants.py:ForceConstants._dipole_correction_init", "euphonic/force_constants.py:ForceConstants._calculate_dipole_correction"]}
{"id": "C158", "title": "What the long-range sums converge to belongs to the crystal, not to its description", "statement": "The long-range correction for polar crystals, calculated from the complete series, is the same in every description of the crystal: for any right-handed choice of cell vectors, any orientation, origin, order of the atoms and cells that they are written down in, and any two positive values of dipole_parameter, its blocks are those of the other description, rotated and multiplied by the phases of the cells. It is periodic in reciprocal space. Frequencies calculated with it are the same in all descriptions with a reduced supercell, including the splitting at gamma points, and equal at wavevectors related by a symmetry of the crystal for all lattices. What the code calculates in two descriptions differs by the terms left out of the sums only.", "quantifier": "all crystals with a right-handed cell, a symmetric positive definite dielectric tensor and no two atoms at the same place, all pairs of descriptions, all q-points, all positive values of dipole_parameter", "why_tests_cant": "An identity between infinite series for all crystals and all of the infinitely many choices of cell vectors; tests use one description of each material.", "anchors": ["euphonic/force_constants.py:ForceConstants._dipole_correction_init", "euphonic/force_constants.py:ForceConstants._calculate_dipole_correction", "euphonic/force_constants.py:ForceConstants._calculate_gamma_correction"]}
{"id": "C159", "title": "The splitting at gamma points is the limit of the long-range correction", "statement": "At every q-point that is not taken for a gamma point the long-range correction is one formula, which contains the reciprocal vector zero; at gamma points that vector is left out and a term depending on the direction of approach is added. Along every line through every gamma point the corrections and the frequencies tend to those calculated at the gamma point with the direction of the line, with or without an acoustic sum rule. Without the splitting the correction jumps wherever an ion feels the field along the line.", "quantifier": "all crystals with cell vectors that span space, a positive definite dielectric tensor and a reduced supercell, all gamma points, all directions that are not taken for gamma points themselves, all non-zero splitting parameters of the sums", "why_tests_cant": "A limit over q-points that come arbitrarily close to a point where the formula divides zero by zero, for all directions and crystals; tests compare stored numbers at a few q-points.", "anchors": ["euphonic/force_constants.py:ForceConstants._calculate_dipole_correction", "euphonic/force_constants.py:ForceConstants._calculate_gamma_correction", "euphonic/force_constants.py:ForceConstants._calculate_phonons_at_q", "euphonic/force_constants.py:ForceConstants.calculate_qpoint_phonon_modes"]}
{"id": "C160", "title": "A polar crystal described in a larger cell has the modes of the smaller cell", "statement": "When a polar crystal is described in a cell that holds several of its smallest cells, with the same ions, charges and force constants, the long-range correction calculated from the complete series is that of the smaller cell: the blocks of all copies of an ion, with their phases, add up to its block. The splitting at a gamma point of the larger cell goes, in full, to the modes of the one wavevector folded onto it that is a gamma point of the smaller cell, and to no others. Every mode of the smaller cell, continued over the larger one, is a mode of the larger cell, and the frequencies of the larger cell at a wavevector are those of the smaller one at all the wavevectors that are folded onto it, with their multiplicities, for any two positive values of dipole_parameter.", "quantifier": "all crystals with a right-handed cell, a symmetric positive definite dielectric tensor, no two atoms at the same place and a reduced supercell, all larger cells, all q-points, all directions that are gamma points in neither cell, all positive values of dipole_parameter", "why_tests_cant": "An identity between infinite series for two crystals of different size, for all integer matrices relating the cells; tests use one cell of each material.", "anchors": ["euphonic/force_constants.py:ForceConstants._dipole_correction_init", "euphonic/force_constants.py:ForceConstants._calculate_dipole_correction", "euphonic/force_constants.py:ForceConstants._calculate_gamma_correction", "euphonic/force_constants.py:ForceConstants.calculate_qpoint_phonon_modes"]}
{"id": "C161", "title": "The command line tools use the Debye-Waller factor of the grid and the temperature asked for", "statement": "With --weighting coherent and --temperature, euphonic-intensity-map and euphonic-powder-map multiply the terms of the structure factor with the Debye-Waller factor whose exponents are the mean over all points of one Monkhorst-Pack grid, each point once: the grid of --grid if it is given, otherwise the coarsest one with steps no longer than --grid-spacing along each reciprocal vector. The same temperature is used for the exponents and for the population factors. Each value plotted, times the width of its bin, is the sum over the modes of the q-point (the mean over the points of the sphere) of the one-phonon structure factors in the bin on the loss side and on the gain side. Without --temperature neither factor is used.", "quantifier": "all force constants, paths, spheres, grids with points, spacings, temperatures, scattering lengths, energy bins in increasing order, and modes with frequencies other than zero", "why_tests_cant": "Tests compare the output of the tools for a few files with stored output, and cannot tell which grid, temperature or weights went into it for other arguments.", "anchors": ["euphonic/cli/utils.py: _grid_spec_from_args, _get_debye_waller", "euphonic/cli/intensity_map.py: main", "euphonic/cli/powder_map.py: main", "euphonic/powder.py: sample_sphere_structure_factor", "euphonic/qpoint_phonon_modes.py: calculate_debye_waller, calculate_structure_factor"]}
{"id": "C162", "title": "Bands are calculated along the path through the high-symmetry points with the spacing asked for", "statement": "For force constants the tools calculate bands at the points of the path that Seekpath finds for the crystal, with the species told apart, and with the spacing given by --q-spacing in units of --length-unit, whatever unit the crystal is held in and whichever cell it is described in. Unknown units and units that are not lengths are refused.", "quantifier": "all crystals, units, cells and spacings, for every path finder that does not depend on the scale", "why_tests_cant": "Tests use crystals held in angstrom in primitive standard cells only, where the lattice may be taken for numbers of angstrom and the coordinates of the path for those of the cell.", "anchors": ["euphonic/cli/utils.py: _bands_from_force_constants, _get_q_distance", "euphonic/crystal.py: Crystal.to_spglib_cell"]}
{"id": "C163", "title": "Polar crystals: symmetry-reduced wavevectors give the Debye-Waller factors and densities of states of the full set", "statement": "For polar crystals, with the long-range correction from the complete series: calculate_debye_waller(symmetrise=True) on one wavevector of each set of symmetry-equivalent ones, weighted with the size of the set, returns the same matrices as symmetrise=False on the full set, and raises nothing. The density of states, and the partial ones of each species with or without neutron weighting, are the same for the reduced and for the full set; that of a single atom is the mean over the atoms that the operations move there. The operations have to be symmetries of crystal, force constants, Born charges and dielectric tensor.", "quantifier": "all crystals with a right-handed cell, a symmetric positive definite dielectric tensor and no two atoms at the same place, all symmetry operations, all sets of wavevectors, temperatures, bins, positive values of dipole_parameter and eigenvectors chosen within degenerate modes", "why_tests_cant": "The correction is an infinite sum that has to be even, periodic and symmetric for every crystal; tests compare one grid of one polar material within tolerances.", "anchors": ["euphonic/qpoint_phonon_modes.py:QpointPhononModes.calculate_debye_waller", "euphonic/qpoint_phonon_modes.py:QpointPhononModes.calculate_pdos", "euphonic/qpoint_frequencies.py:QpointFrequencies.calculate_dos", "euphonic/force_constants.py:ForceConstants._calculate_dipole_correction"]}
{"id": "C164", "title": "From a Phonopy file to exact phonons", "statement": "At q-points that fit into the supercell, the modes calculated by a ForceConstants object that was read from Phonopy are the normal modes of the supercell in the file: the dynamical matrix between two atoms is the sum over the copies of the second in the file's supercell of the force constants in the file times the phase from cell to cell; if all atoms of that supercell are displaced along a mode, the force on each, from the force constants and masses written in the file (converted to the units asked for), is minus the squared frequency times mass times displacement; and if the file's force constants are periodic and reciprocal and no displacement lowers the energy, no frequency at these q-points is imaginary. This holds in spite of coordinates outside the cell (C141), for full and compact matrices, and for any order of the atoms of the supercell.", "quantifier": "for all files (lattices, numbers and places of atoms, supercell matrices, force constants, units), all q-points that fit into the supercell, all eigenvectors and displacements", "why_tests_cant": "Tests compare frequencies for four materials with frequencies that Phonopy computed. That reordering of the atoms, choice of cell origins, conversion of units, images and mass weighting together leave the normal modes of any supercell unchanged quantifies over all files and force constants.", "anchors": ["euphonic/force_constants.py:ForceConstants.from_phonopy", "euphonic/readers/phonopy.py:read_interpolation_data", "euphonic/util.py:convert_fc_phases", "euphonic/force_constants.py:ForceConstants.calculate_qpoint_phonon_modes"]}
{"id": "C165", "title": "Total force constants survive the subtraction of the dipole term", "statement": "Force constants from a supercell calculation contain the long-range interaction of the periodic supercell; ForceConstants.from_total_fc_with_dipole subtracts it, and calculating modes adds the long-range interaction of the infinite crystal. At q-points that fit into the supercell the two cancel: dynamical matrix, frequencies and modes are those of the total force constants as given, whatever dipole_parameter is used; every mode is a normal mode of the supercell, and if no displacement of its atoms lowers the energy, no frequency there is imaginary. With the sums as the code cuts them the deviation is at most the error of the correction at the q-point plus the number of cells times the error of the correction of the supercell.", "quantifier": "for all crystals with a right-handed cell, a symmetric positive definite dielectric tensor and no two atoms at the same place, all Born charges, force constants, units and symmetric supercell matrices, all q-points that fit into the supercell, and all positive values of dipole_parameter", "why_tests_cant": "Tests compare one quartz file read by one reader with the same data read by another. That two infinite sums over different lattices, evaluated with different parameters, cancel for every crystal and every supercell is a theorem about Ewald sums, not something samples settle.", "anchors": ["euphonic/force_constants.py:ForceConstants.from_total_fc_with_dipole", "euphonic/force_constants.py:ForceConstants._calculate_dipole_correction", "euphonic/force_constants.py:ForceConstants.calculate_qpoint_phonon_modes"]}
{"id": "C166", "title": "From a Phonopy file of a polar crystal to exact phonons", "statement": "If the files contain Born charges and a dielectric tensor, ForceConstants.from_phonopy returns the force constants less the long-range interaction of the periodic supercell, and the calculation of modes adds that of the infinite crystal. At q-points that fit into the supercell the result does not show this: the modes are the normal modes of the supercell in the file, with the force constants and masses written in the file, for every atom of the supercell; if these force constants are periodic and reciprocal and no displacement lowers the energy, no frequency there is imaginary. With the sums as the code cuts them, the dynamical matrix differs from the sum over the copies in the file's supercell at most by what the sums leave out. Without Born charges the force constants are returned as read.", "quantifier": "for all files (lattices, numbers and places of atoms, symmetric supercell matrices, force constants, charges, dielectric tensors that are symmetric and positive definite), all q-points that fit into the supercell, all positive values of dipole_parameter", "why_tests_cant": "Tests compare frequencies of a few polar materials with those Phonopy computed, within tolerances. That subtracting one infinite sum for the supercell and adding another one for the crystal cancels for every file quantifies over all crystals and supercells.", "anchors": ["euphonic/force_constants.py:ForceConstants.from_phonopy", "euphonic/force_constants.py:ForceConstants.from_total_fc_with_dipole", "euphonic/readers/phonopy.py:read_interpolation_data", "euphonic/force_constants.py:ForceConstants.calculate_qpoint_phonon_modes"]}
{"id": "C167", "title": "Symmetrised Debye-Waller exponents have the symmetry of the crystal", "statement": "With symmetrise=True, calculate_debye_waller returns matrices with the symmetry of the crystal whatever the modes and wavevectors it was given: if the operations found are symmetries of the crystal and form a group, the matrix of the atom to which an operation takes an atom is the rotated matrix of that atom; the matrix of an atom at a site of cubic symmetry is a multiple of the identity; the mean square displacements of the atoms of a species add up to the value without symmetrisation; matrices that have the symmetry already are not changed.", "quantifier": "all crystals with non-zero cell volume and atoms of one species further apart than the tolerance, all lists of operations that are symmetries and form a group up to lattice vectors, all modes, wavevectors, weights, temperatures and chunk sizes, all orientations of the cell", "why_tests_cant": "Tests compare the matrices of one or two materials with stored numbers; that rotation matrices, the table of equivalent atoms and the average over the operations fit together for every space group is a statement about all of them.", "anchors": ["euphonic/qpoint_phonon_modes.py: QpointPhononModes.calculate_debye_waller", "euphonic/crystal.py: Crystal.get_symmetry_equivalent_atoms, Crystal.reciprocal_cell"]}
{"id": "C168", "title": "From a castep_bin file to exact phonons", "statement": "A .castep_bin file written record by record with force constants for a box of cells is read, and the phonons calculated from the result are those of the force constants in the file: at every wavevector that fits into the supercell the dynamical matrix is the Fourier sum of the force constants in the file over the cells in the file, divided by the square roots of the masses of the species in the file; a mode is a normal mode of the supercell (each atom of each cell feels minus the squared frequency times mass times displacement); and if no displacement of the atoms lowers the energy, no frequency is imaginary. It does not matter that atoms outside of the unit cell are moved into it when the file is read.", "quantifier": "For all files (numbers of species and atoms, lattices, positions inside or outside of the cell, supercells, force constants, other records, several force constant blocks), all wavevectors that fit into the supercell, all eigensolvers that meet their specification, and whatever is found for pairs without images.", "why_tests_cant": "Tests read a few files written by CASTEP and compare with stored numbers; that the bytes of any file lead through Fortran order, wrapping of positions, image weighting and mass weighting to exact forces cannot be seen from samples.", "anchors": ["euphonic/readers/castep.py: read_interpolation_data, _read_cell", "euphonic/force_constants.py: ForceConstants.from_castep, ForceConstants.calculate_qpoint_phonon_modes"]}
{"id": "C169", "title": "Asking for less does not change the rest", "statement": "calculate_qpoint_frequencies returns the frequencies, q-points, weights and mode gradients of the object that calculate_qpoint_phonon_modes returns for the same arguments, or raises the same error, gives the same warnings and leaves the object in the same state; asking for mode gradients does not change the modes. This holds for the Python implementation and for the C extension, where the matrices of different calls are built in different arrays with leftovers of other q-points.", "quantifier": "For all force constants, q-points, weights and options, all numbers of threads, all contents of the arrays of a thread, any behaviour of LAPACK and any state of the caches.", "why_tests_cant": "Tests compare a few stored results; the paths with and without eigenvectors and gradients run through different arrays in C, and that nothing of one leaks into the other is a statement about all sequences of q-points.", "anchors": ["euphonic/force_constants.py: ForceConstants.calculate_qpoint_phonon_modes, ForceConstants.calculate_qpoint_frequencies", "euphonic/qpoint_phonon_modes.py: QpointPhononModes.to_qpoint_frequencies", "c/_euphonic.c: calculate_phonons"]}
{"id": "C170", "title": "Acoustic frequencies leave zero with a finite slope", "statement": "For force constants that are invariant under translations of the crystal, if there are no imaginary frequencies near the gamma point, the three lowest frequencies calculated at any wavevector are at most a constant times the size of the wavevector, with an explicit constant made of the force constants, the total mass and the range of the interaction; the lowest frequency satisfies the bound also where the crystal is unstable. So dispersion curves have a speed of sound and the density of states vanishes at zero energy as in the Debye model.", "quantifier": "For all crystals with a reduced supercell, all translation invariant symmetric force constants, all masses and all wavevectors, any correct diagonalisation.", "why_tests_cant": "Tests look at frequencies at a few wavevectors; a jump or a root-like rise next to the gamma point (from a phase or image that is wrong for one pair of atoms) can be as small as one likes at these, and the bound is for all crystals.", "anchors": ["euphonic/force_constants.py: ForceConstants._calculate_phonons_at_q, ForceConstants._calculate_dyn_mat, ForceConstants._calculate_supercell_images"]}
{"id": "C171", "title": "The splitting at gamma points raises frequencies, one mode at a time", "statement": "With the splitting of a direction no frequency at a gamma point is lower than without it, and some frequency is higher if an ion feels the field along the direction; the ordered frequencies with and without the splitting interlace, so at most one mode passes the next; modes without a dipole moment along the direction keep their frequencies and displacements; and the squares of all frequencies together grow by 4 pi / V times the sum of the squared effective charges over the masses, over the dielectric constant of the direction, whatever the force constants and the other corrections are.", "quantifier": "For all crystals with right handed cells and positive dielectric tensors, all Born charges, masses, force constants and Hermitian corrections, all directions that are not taken for gamma points, any correct diagonalisation.", "why_tests_cant": "Tests compare frequencies of a few crystals with stored values; that longitudinal modes rise and transverse modes stay is a statement about all crystals and directions, and holds mode by mode only through the min-max principle.", "anchors": ["euphonic/force_constants.py: ForceConstants._calculate_gamma_correction, ForceConstants._calculate_phonons_at_q"]}
{"id": "C172", "title": "Scattering at symmetry-equivalent wavevectors is the same", "statement": "If a symmetry operation of the crystal and its force constants moves one wavevector to another, the two have the same phonon frequencies and the same inelastic structure factors: for every frequency the structure factors of the modes that have it add up to the same value, and calculate_sqw_map gives the same row. calculate_structure_factor succeeds for both or for neither. This holds without Debye-Waller exponents and with exponents from calculate_debye_waller(symmetrise=True) of any wavevectors, weights and temperature, also if these wavevectors do not have the symmetry of the crystal.", "quantifier": "all crystals, supercells, force constants, masses, scattering lengths and wavevectors (also outside the first Brillouin zone), all groups of symmetry operations, all eigensolvers, all Debye-Waller grids, all increasing energy bins", "why_tests_cant": "Tests compare structure factors at single wavevectors with stored numbers; the claim relates results at different wavevectors and composes Fourier interpolation, diagonalisation, symmetrisation of the exponents, phases and binning for every space group.", "anchors": ["euphonic/force_constants.py:ForceConstants.calculate_qpoint_phonon_modes", "euphonic/qpoint_phonon_modes.py:QpointPhononModes.calculate_debye_waller", "euphonic/qpoint_phonon_modes.py:QpointPhononModes.calculate_structure_factor", "euphonic/structure_factor.py:StructureFactor.calculate_sqw_map"]}
{"id": "C173", "title": "Polar crystals: structure factors do not depend on the description and are the same at equivalent wavevectors", "statement": "For polar crystals, with the long-range correction from the complete series and supercells that are reduced: Debye-Waller exponents and inelastic structure factors (for every frequency, the sum over the modes that have it) do not depend on the choice of cell vectors, orientation, origin, order of atoms and cells, and of dipole_parameter. At wavevectors that a symmetry of crystal, force constants, Born charges and dielectric tensor moves into each other, frequencies, structure factors and the rows of calculate_sqw_map are the same, without Debye-Waller exponents or with symmetrised ones of any modes. Gamma points with splitting are included, the direction of approach being moved along with the wavevector.", "quantifier": "all crystals with a right-handed cell, a symmetric positive definite dielectric tensor and no two atoms at the same place, all pairs of descriptions, all groups of symmetry operations, all sets of wavevectors (also outside the first Brillouin zone) and directions, scattering lengths, temperatures, increasing energy bins, positive values of dipole_parameter and eigenvectors chosen within degenerate modes", "why_tests_cant": "The claim relates runs on different inputs and composes infinite sums, diagonalisation, phases, exponents and binning for every crystal and space group; tests compare single runs on few materials with stored numbers.", "anchors": ["euphonic/force_constants.py:ForceConstants._calculate_dipole_correction", "euphonic/force_constants.py:ForceConstants._calculate_gamma_correction", "euphonic/qpoint_phonon_modes.py:QpointPhononModes.calculate_debye_waller", "euphonic/qpoint_phonon_modes.py:QpointPhononModes.calculate_structure_factor", "euphonic/structure_factor.py:StructureFactor.calculate_sqw_map"]}
{"id": "C174", "title": "Polar crystals: scattering and densities of states do not depend on the number of primitive cells in the unit cell", "statement": "For polar crystals, with the long-range correction from the complete series and supercells that are reduced: when the same crystal is written down in a cell that holds several of the smaller ones, one-phonon structure factors per atom at the same scattering vector are the same (for every function of the frequency, the sum over modes), so folded modes carry no intensity; Debye-Waller exponents of each copy of an atom are those of the original; the density of states on a grid is that of the smaller cell on all the wavevectors folded onto the grid. Gamma points of the larger cell with splitting are included: the same results come out when the smaller cell is split at its own gamma points only. The two runs may use different values of dipole_parameter.", "quantifier": "all crystals with a right-handed cell, a symmetric positive definite dielectric tensor and no two atoms at the same place, all larger cells, scattering vectors, directions of approach that are gamma points in neither cell, weights, temperatures, increasing bins, scattering lengths, positive values of dipole_parameter and eigenvectors chosen within degenerate modes", "why_tests_cant": "The claim relates runs on crystals of different size for all integer matrices relating the cells and composes infinite sums, diagonalisation, phases and exponents; tests use one cell of each material.", "anchors": ["euphonic/force_constants.py:ForceConstants._calculate_dipole_correction", "euphonic/force_constants.py:ForceConstants._calculate_gamma_correction", "euphonic/qpoint_phonon_modes.py:QpointPhononModes.calculate_debye_waller", "euphonic/qpoint_phonon_modes.py:QpointPhononModes.calculate_structure_factor", "euphonic/qpoint_frequencies.py:QpointFrequencies.calculate_dos"]}
{"id": "C175", "title": "Acoustic sum rule corrections are no larger than the violation of the sum rule", "statement": "Let V be the sum of the squares of the forces on the atoms of a cell when the whole crystal is moved by a unit length along x, y and z. With asr='realspace' no force constant is changed by more than 3 (1 + 1e-8) sqrt(2 V / n), n being the number of atoms in the cell, whatever the size of the supercell. In particular force constants that obey the sum rule are returned exactly as they are, so all results are those with asr=None. If the acoustic modes that are found are the same in all cells of the supercell, the square of no frequency changes by more than 3 (1 + 1e-8) sqrt(6 V) / m at any wavevector, m being the smallest mass. With asr='reciprocal' no element of the matrix that is added to all dynamical matrices is larger than 1.5e-14 + 3 sqrt(2 V / n) in atomic units, V being taken from the dynamical matrix at the gamma point (with or without dipole correction); for force constants that obey the sum rule it is at most 1.5e-14.", "quantifier": "all crystals, supercells, force constants that are symmetric under exchange of atoms, and all orthonormal eigenvectors the eigensolver may return, also within degenerate modes; whether three acoustic modes are found or not", "why_tests_cant": "A bound for all force constants and all choices of eigenvectors; tests compare the corrected frequencies of a few materials with stored ones, for which the violation is small.", "anchors": ["euphonic/force_constants.py:ForceConstants._enforce_realspace_asr", "euphonic/force_constants.py:ForceConstants._enforce_reciprocal_asr", "euphonic/force_constants.py:ForceConstants._find_acoustic_modes", "euphonic/force_constants.py:ForceConstants.calculate_qpoint_phonon_modes"]}
{"id": "C176", "title": "Mode gradients at equivalent wavevectors", "statement": "With return_mode_gradients=True, the mode gradients at wavevectors that differ by a reciprocal lattice vector are the same, the mode gradients at -q are minus those at q, and those at wavevectors related by a symmetry operation of the crystal, or calculated from another description of the same crystal (orientation, origin, order of the atoms, cell vectors, supercell vectors), are related by the rotation; so the magnitudes, from which the widths for adaptive broadening are calculated, are equal.", "quantifier": "all crystals with symmetric force constants and all wavevectors, with and without corrections for dipoles and the sum rule (the one for dipoles is periodic except where a component of the wavevector is a half-integer); the second and third part for modes whose frequency is not zero and not shared with another mode, and for the sums over modes of equal frequencies (gradients of single modes of equal frequencies depend on the eigenvectors that are found), also if the frequency is imaginary; the third part for reduced supercells, with corrections for descriptions in which the atoms are in the same cells or the corrections do not couple atoms moved to different cells", "why_tests_cant": "Relates results for all pairs of equivalent wavevectors and descriptions; tests compare gradients of a few materials at a few wavevectors with stored ones.", "anchors": ["euphonic/force_constants.py:ForceConstants.calculate_qpoint_phonon_modes", "euphonic/force_constants.py:ForceConstants._calculate_phonons_at_q", "euphonic/force_constants.py:ForceConstants._calculate_dyn_mat_at_q", "euphonic/util.py:mode_gradients_to_widths"]}
