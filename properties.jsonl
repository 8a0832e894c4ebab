{"id": "C01", "title": "TimeSamples streaming covers the data exactly once", "statement": "Iterating TimeSamples.result(num) for any block size num >= 1 yields blocks whose concatenation is exactly the (calibrated) data; every block except the last has exactly num rows, the last has between 1 and num rows, and an object holding no samples raises instead of yielding.", "quantifier": "every data array with any number of rows, every block size num >= 1, with or without a calibration of matching channel count", "why_tests_cant": "A test fixes a few (length, num) pairs; the boundary cases (length multiple of num, num larger than length) form an infinite family.", "anchors": ["acoular/sources.py: TimeSamples.result", "acoular/base.py: SamplesGenerator.result"]}
{"id": "C02", "title": "MaskedTimeSamples / MaskedTimeOut deliver exactly the selected samples and channels", "statement": "MaskedTimeOut.result(num) yields the source rows with index in slice(start, stop) (Python slice semantics, negative and None allowed) restricted to the valid channels, in order, re-blocked into blocks of num rows (last block shorter), for every source that honours the block contract; it raises OSError exactly if the selection is empty.  num_samples equals the number of rows delivered.", "quantifier": "every source content, every start and stop (any integers, or None), every list of invalid channels, every block size num >= 1", "why_tests_cant": "The re-blocking buffer has separate branches for first/last/middle block and an offset computed from -start % num; the failing combinations of start, stop, length and num cannot be enumerated.", "anchors": ["acoular/tprocess.py: MaskedTimeOut.result, _get_num_samples, _get_channels", "acoular/sources.py: MaskedTimeSamples.result"]}
{"id": "C03", "title": "Block-wise averaging is independent of the block size", "statement": "Average.result(num) delivers the means of consecutive groups of num_per_average rows of the source, drops an incomplete last group, and the sequence of averages does not depend on num; no empty block is yielded.", "quantifier": "every source content honouring the block contract, every num_per_average >= 1, every num >= 1", "why_tests_cant": "Equality of two regroupings for all lengths and block sizes is an unbounded statement.", "anchors": ["acoular/process.py: Average.result"]}
{"id": "C04", "title": "A cached source is transparent for every history of runs", "statement": "For every history of Cache.result runs against one cache file - any block sizes, any global_caching mode per run, each run abandoned after any number of blocks or consumed to the end - every run that is consumed to the end delivers exactly the rows of the source, and what an abandoned run delivered is a prefix of them.", "quantifier": "every source content, every finite history of (mode, block size, number of blocks consumed) triples", "why_tests_cant": "The cache state depends on the whole history of interrupted and completed runs; tests exercise single runs or one interruption.", "anchors": ["acoular/process.py: Cache.result, _write_data_to_cache, _get_data_from_cache, _get_data_from_incomplete_cache"]}
{"id": "C05", "title": "readonly and none caching never touch the cache file", "statement": "A run of Cache.result in mode 'none' or 'readonly' leaves the cache file content (existence, node, completeness mark) unchanged, wherever the run is abandoned; in every mode a node marked complete holds the full source data.", "quantifier": "every cache file state reachable by runs, every block size, every point of abandonment", "why_tests_cant": "Absence of writes and an invariant over reachable states need induction over histories.", "anchors": ["acoular/process.py: Cache.result", "acoular/h5cache.py: HDF5Cache.get_cache_file"]}
{"id": "C06", "title": "SampleSplitter delivers every block to every registered object or reports the loss", "statement": "When several registered objects consume one SampleSplitter in any interleaving of requests, each object receives the source's blocks in order, without gaps or duplicates, unless an overflow of its buffer is reported (error) or its overflow treatment accepts the loss ('warning', 'none').", "quantifier": "every source block sequence, every number of registered objects with any buffer sizes and treatments, every schedule of requests", "why_tests_cant": "The set of schedules is infinite; tests run one schedule per thread timing.", "anchors": ["acoular/process.py: SampleSplitter.result, _fill_block_buffers, _inspect_buffer_levels, LockedGenerator"]}
{"id": "C07", "title": "SamplesBuffer re-blocks without loss, gaps or repetition", "statement": "With the default index shift, SamplesBuffer.result(num) delivers the source's rows once each in order, in blocks of num rows (last one shorter), for every source block size and every buffer length that can hold the blocks; with shift_index_by='num' and result_num >= num the k-th block starts at row k*num and overlaps its successor by result_num - num rows.", "quantifier": "every source content, every source block size, buffer length, result size and num", "why_tests_cant": "A moving-window buffer with an index that is moved by writes and reads needs an invariant over all steps.", "anchors": ["acoular/process.py: SamplesBuffer.result, fill_buffer, read_from_buffer, _write_to_buffer, increase_buffer"]}
{"id": "C08", "title": "TimeReverse delivers the exact time reversal", "statement": "The concatenation of the blocks of TimeReverse.result(num) (each copied when received) is the reverse of the source data, in blocks of the source's block sizes, for every non-empty source that yields fresh blocks.", "quantifier": "every non-empty source content and every num >= 1", "why_tests_cant": "The in-place splicing of each block around the length of the last block must be right for every remainder.", "anchors": ["acoular/tprocess.py: TimeReverse.result"]}
{"id": "C09", "title": "Cumulative average equals the mean of all samples so far", "statement": "Row n of the concatenated output of TimeCumAverage.result(num) is the arithmetic mean of source rows 0..n, independent of num.", "quantifier": "every source content honouring the block contract, every num >= 1, every row index", "why_tests_cant": "The running accumulator/counter recurrence must be shown by induction over blocks.", "anchors": ["acoular/tprocess.py: TimeCumAverage.result"]}
{"id": "C10", "title": "IIR filtering is independent of the block size", "statement": "The concatenated output of Filter.result(num) (second-order sections with carried state) equals filtering the whole signal in one piece from rest; hence it does not depend on num. For TimeExpAverage the output is the exponential average recurrence.", "quantifier": "every list of second-order sections, every source content, every num >= 1", "why_tests_cant": "State hand-over between blocks has to be right for every chunking.", "anchors": ["acoular/tprocess.py: Filter.result, TimeExpAverage", "scipy sosfilt (documented recurrence)"]}
{"id": "C11", "title": "Filter banks process every source length", "statement": "FilterBank.result(num) yields for each source block the filtered block for every band, including a shorter last block, without raising.", "quantifier": "every source length, number of bands and num >= 1", "why_tests_cant": "A test uses lengths that are multiples of the block size.", "anchors": ["acoular/tprocess.py: FilterBank.result"]}
{"id": "C12", "title": "WriteH5 stores exactly the requested number of samples while echoing the source", "statement": "After WriteH5.result(num) has been consumed to the end, the file holds the first min(num_samples_write, N) rows of the source (all N rows for -1) and the yielded blocks are source blocks in order; clearing write_flag after k blocks stops both the yielding and the writing after these k blocks.", "quantifier": "every source content, every num_samples_write >= -1, every num >= 1, every point at which the flag is cleared", "why_tests_cant": "Stop conditions interact with block boundaries for unboundedly many combinations.", "anchors": ["acoular/tprocess.py: WriteH5.result"]}
{"id": "C13", "title": "Mixing adds the sources and leaves them unchanged", "statement": "Mixer.result(num) yields the sum of source and all additional sources up to the shortest of them, independent of num, and does not change the data of its sources, so a second run yields the same result.", "quantifier": "every list of sources with any lengths, every num >= 1, every number of repeated runs", "why_tests_cant": "Aliasing between yielded blocks and stored data only shows for particular source classes and histories.", "anchors": ["acoular/tprocess.py: Mixer.result", "acoular/sources.py: SourceMixer.result, TimeSamples.result"]}
{"id": "C14", "title": "Overlapped FFT windows cover the signal as the overlap setting says", "statement": "The windows taken from the source for block size bs and overlap factor ov (1, 2, 4, 8) are exactly the rows [floor(k*bs/ov), floor(k*bs/ov)+bs) for all k for which the window lies completely inside the signal, in order, each once.", "quantifier": "every signal length, every block size divisible by the overlap factor", "why_tests_cant": "The window generator keeps a double-length buffer and a running position; correctness for all lengths needs an invariant.", "anchors": ["acoular/spectra.py: BaseSpectra._get_source_data", "acoular/fprocess.py: RFFT.result"]}
{"id": "C15", "title": "Cross spectral matrix is Hermitian and positive semidefinite", "statement": "For every frequency the cross spectral matrix is Hermitian, its diagonal is real and non-negative, and every quadratic form v^H C v is real and >= 0; it equals the scaled sum over all windows of the outer products of the windows' spectra.", "quantifier": "every number of channels and windows, every spectra, every test vector", "why_tests_cant": "Only the upper triangle is accumulated and mirrored; the algebraic identity and positivity are over all complex inputs.", "anchors": ["acoular/spectra.py: PowerSpectra.calc_csm", "acoular/fastFuncs.py: calcCSM"]}
{"id": "C16", "title": "Averaging normalisation counts the windows actually used", "statement": "num_blocks, by which the accumulated cross spectral matrix is divided, equals the number of windows that were accumulated.", "quantifier": "every signal length at least one block long, every block size and overlap factor", "why_tests_cant": "Tests use lengths that are multiples of the block size, for which the fractional formula coincides.", "anchors": ["acoular/spectra.py: PowerSpectra._get_num_blocks, calc_csm"]}
{"id": "C17", "title": "Frequency index range selects exactly the half-open frequency interval", "statement": "With freq_range=(f1, f2) set last, indices contains exactly the frequency line indices i (below the last line) with f1 <= fftfreq[i] < f2, in increasing order; with ind_low/ind_high set last, indices is the range from the clipped ind_low to the clipped ind_high, Python slice semantics.", "quantifier": "every ascending frequency vector, every pair of limits or indices (including None and negative high index)", "why_tests_cant": "The binary search result must be characterised for every vector and limit.", "anchors": ["acoular/spectra.py: PowerSpectra._get_ind_low, _get_ind_high, _get_indices, _get_freq_range"]}
{"id": "C18", "title": "Imported cross spectral matrices never yield stale eigenvalues", "statement": "After assigning csm on a PowerSpectraImport object, eva and eve refer to the matrix assigned last, for every sequence of assignments and reads.", "quantifier": "every finite sequence of csm assignments and eva/eve reads", "why_tests_cant": "The invalidation depends on the checksum of the previous matrix; only particular assignment histories show the failure.", "anchors": ["acoular/spectra.py: PowerSpectraImport._set_csm, _get_digest, _get_eva"]}
{"id": "C19", "title": "Digests distinguish different parameter settings", "statement": "Two objects of the same class get equal digest preimages only if all digest dependencies are equal (so that cached results are never exchanged between different settings).", "quantifier": "every pair of parameter assignments of a class", "why_tests_cant": "Injectivity over an infinite domain.", "anchors": ["acoular/internal.py: digest, ldigest", "acoular/tprocess.py: MaskedTimeOut.digest", "acoular/sources.py: TimeSamples.digest"]}
{"id": "C20", "title": "Cached spectra equal computed spectra for every crash point", "statement": "csm/eva/eve obtained with file caching equal the computed values, for every caching mode and for every history of accesses in which a process may have died between any two file operations.", "quantifier": "every history of accesses (mode per access) and crash points, every source", "why_tests_cant": "Crash points between array creation and filling cannot be hit systematically by unit tests.", "anchors": ["acoular/spectra.py: PowerSpectra._get_filecache, _get_csm"]}
{"id": "C21", "title": "Beamformer results are computed once per frequency and never mixed up", "statement": "For every sequence of requests for frequency lines (single lines, slices, bands) on a beamformer with or without file cache, each returned line equals the value computed for that line, regardless of the order of requests and of interruptions between lines.", "quantifier": "every number of frequency lines, every sequence of keys, every interruption point", "why_tests_cant": "The lazily filled result array makes results depend on history.", "anchors": ["acoular/fbeamform.py: LazyBfResult.__getitem__, BeamformerBase._get_result, _calc, _get_filecache"]}
{"id": "C22", "title": "Band synthesis is additive and covers each line once", "statement": "synthetic(f, num) for num > 0 is the sum of the result over exactly the lines with f*2^(-1/2num) <= freq < f*2^(1/2num); adjacent bands share no line, and the sum over consecutive bands equals the result over the union. For num = 0 it is the first line at or above f, zeros when no such line exists.", "quantifier": "every ascending frequency vector, every band edges, every beamformer result", "why_tests_cant": "Half-open interval semantics via binary search for every vector.", "anchors": ["acoular/fbeamform.py: BeamformerBase.synthetic", "acoular/tools/helpers.py: synthetic"]}
{"id": "C23", "title": "Conventional beamformer output is the quadratic form of the CSM", "statement": "For every Hermitian CSM the fast kernel's value at a grid point equals the quadratic form h^H C h of the steering vector (diagonal terms excluded when r_diag is set), for all four steering vector formulations, and is non-negative for positive semidefinite C without diagonal removal.", "quantifier": "every number of microphones, every distances, wave number and Hermitian CSM, each formulation", "why_tests_cant": "Numerical tests compare stored arrays for one geometry.", "anchors": ["acoular/fastFuncs.py: _freqBeamformer_FullCSM, beamformerFreq", "acoular/fbeamform.py: BeamformerBase._calc, SteeringVector.steer_vector"]}
{"id": "C24", "title": "Eigenvalue-based and CSM-based beamforming agree", "statement": "The kernel that uses eigenvalues and eigenvectors gives the same value as the full-CSM kernel on the matrix reassembled from the selected eigenpairs, with and without diagonal removal; selecting all components gives the conventional result.", "quantifier": "every number of microphones, every eigenpairs, every steering vector", "why_tests_cant": "Algebraic identity over all inputs.", "anchors": ["acoular/fastFuncs.py: _freqBeamformer_EigValues, _freqBeamformer_FullCSM", "acoular/fbeamform.py: BeamformerEig, BeamformerBase._calc"]}
{"id": "C25", "title": "Predefined and user supplied steering vectors give the same map", "statement": "For each of the four formulations the optimised kernel (amplitude factors pulled out of the sum) equals the generic kernel applied to the steering vector returned by SteeringVector.steer_vector; the time-domain steering amplitudes equal the moduli of the frequency-domain steering vector entries.", "quantifier": "every number of microphones, all positive distances, every wave number and CSM", "why_tests_cant": "Algebraic identity over all geometries.", "anchors": ["acoular/fbeamform.py: SteeringVector.steer_vector, _steer_funcs_freq", "acoular/tfastfuncs.py: _steer_I, _steer_II, _steer_III, _steer_IV", "acoular/fastFuncs.py: _freqBeamformer_FullCSM, _freqBeamformer_SpecificSteerVec_FullCSM"]}
{"id": "C26", "title": "Point spread function is calibrated at the source", "statement": "The point spread function value at the source's own position is 1 for the 'inverse' and 'true level' formulations; for 'true location' the source position attains the maximum over all focus points; PSF values are real, non-negative and equal |h^H a|^2.", "quantifier": "every geometry with positive distances, every frequency, every pair of grid points", "why_tests_cant": "Statement over all geometries; the maximum property is the Cauchy-Schwarz inequality.", "anchors": ["acoular/fbeamform.py: PointSpreadFunction, SteeringVector", "acoular/fastFuncs.py: calcPointSpreadFunction and its formulations"]}
{"id": "C27", "title": "DAMAS iterations keep source powers non-negative and solve the system at fixed points", "statement": "Every iterate of the Gauss-Seidel solver used by DAMAS is non-negative after the first sweep; a vector is a fixed point exactly if it satisfies the complementarity form of A x = y with unit diagonal (x_i = max(0, ...)); an exact non-negative solution is a fixed point; the relaxation value does not change the set of positive fixed points.", "quantifier": "every matrix size, matrix, dirty map, relaxation and number of iterations", "why_tests_cant": "Invariant over all iterations and inputs.", "anchors": ["acoular/fastFuncs.py: damasSolverGaussSeidel", "acoular/fbeamform.py: BeamformerDamas._calc"]}
{"id": "C28", "title": "CLEAN keeps the residual identity and terminates", "statement": "After every CLEAN iteration the dirty map equals the initial map minus the point spread functions of all found components weighted by their strengths; the loop ends after at most n_iter iterations; all extracted strengths are non-negative when the initial maximum is non-negative.", "quantifier": "every map size, PSF, damping, iteration limit and dirty map", "why_tests_cant": "Loop invariant and termination.", "anchors": ["acoular/fbeamform.py: BeamformerClean._calc", "acoular/tbeamform.py: BeamformerCleant.result"]}
{"id": "C29", "title": "CLEAN-SC loop respects its limits", "statement": "BeamformerCleansc performs at most n_iter (or 2*nmics when n_iter is 0) component removals, the degraded CSM stays Hermitian, and the stop criterion compares with the map maximum stopn iterations earlier.", "quantifier": "every CSM, grid and parameter setting", "why_tests_cant": "Loop invariant over all iterations.", "anchors": ["acoular/fbeamform.py: BeamformerCleansc._calc"]}
{"id": "C30", "title": "Eigenvalue selection stays inside the valid range", "statement": "BeamformerEig.na is always an index between 0 and nmics-1 for every signed n, counts from the end for negative n; BeamformerMusic and BeamformerOrth use it consistently.", "quantifier": "every number of microphones >= 1 and every integer n", "why_tests_cant": "Range over all integers.", "anchors": ["acoular/fbeamform.py: BeamformerEig._get_na"]}
{"id": "C31", "title": "Rectangular grids index the nearest point", "statement": "For a RectGrid whose extent is a multiple of the increment, size = nxsteps*nysteps = number of positions, position and index are inverse to each other, and index(x, y) returns the grid point nearest to (x, y) for every point inside the grid; points outside raise ValueError.", "quantifier": "every grid extents, increment > 0, every point", "why_tests_cant": "Round-off/rounding ties and non-multiples make particular inputs fail.", "anchors": ["acoular/grids.py: RectGrid._get_nxsteps, _get_pos, index, RectGrid3D.index"]}
{"id": "C32", "title": "Sub-grid selection returns exactly the points of the region", "statement": "RectGrid.indices/subdomain with a circle, rectangle or polygon argument and the Sector classes select exactly the grid points inside the region (border rule as documented); MultiSector is the union of its sectors; with default_nearest at least one point is selected.", "quantifier": "every grid, every sector parameters", "why_tests_cant": "Set equality over all points and shapes.", "anchors": ["acoular/grids.py: RectGrid.indices, Sector.contains, RectSector, CircSector, PolySector, ConvexSector, MultiSector"]}
{"id": "C33", "title": "Integration over sectors is additive", "statement": "integrate() over a MultiSector of disjoint sectors equals the sum of the integrals over its parts, is monotone for non-negative maps, and equals the whole map sum for a sector covering the grid.", "quantifier": "every map, grid and sector list", "why_tests_cant": "Additivity for all sets.", "anchors": ["acoular/fbeamform.py: integrate, BeamformerBase.integrate", "acoular/grids.py: MultiSector"]}
{"id": "C34", "title": "Uniform flow travel distances solve the convected wave equation", "statement": "The apparent distance d returned for uniform flow with Mach number |M| < 1 between a grid point g and a microphone m is the unique solution d >= 0 of |m - (g + M d e_flow)| = d, where e_flow is the unit vector of the flow direction (downstream shortened, upstream lengthened), reduces to the geometric distance for M = 0 and is always positive for distinct points.", "quantifier": "every point pair, every flow direction, every subsonic Mach number", "why_tests_cant": "Statement over a continuum.", "anchors": ["acoular/environments.py: UniformFlowEnvironment._r, Environment._r, dist_mat"]}
{"id": "C35", "title": "Flow field Jacobians are the derivatives of the velocity", "statement": "RotatingFlow.v, SlotJet.v and OpenJet.v return a Jacobian that is the exact derivative of the returned velocity field: for RotatingFlow everywhere, for the jets at every position off the nozzle exit plane at which the velocity field is differentiable (they have a kink on the jet axis or centre plane beyond the core).", "quantifier": "every position and every parameter setting", "why_tests_cant": "Derivative statement over a continuum.", "anchors": ["acoular/environments.py: RotatingFlow.v, SlotJet.v, OpenJet.v"]}
{"id": "C36", "title": "Cylindrical coordinate conversion round-trips", "statement": "cylToCart(cartToCyl(x)) returns x for every position.", "quantifier": "every cartesian position", "why_tests_cant": "Tests compare only rotational symmetric use.", "anchors": ["acoular/environments.py: cartToCyl, cylToCart"]}
{"id": "C37", "title": "Ray start directions are orthogonally rotated", "statement": "spiral_sphere(N, Om, b) returns unit vectors; the reflection applied for a given axis b is orthogonal and maps the pole axis to b/|b|; all directions lie in the cone of solid angle Om around b; they are pairwise different and cover the cone evenly: equal steps along the axis, and a turn about the axis by 3.6/sqrt(N*4*pi/Om*(1-h^2)) from one to the next.", "quantifier": "every N and every axis b", "why_tests_cant": "Continuum of axes.", "anchors": ["acoular/environments.py: spiral_sphere"]}
{"id": "C38", "title": "Microphone geometry excludes exactly the invalid channels and survives export and import", "statement": "pos consists of the columns of pos_total whose index is not in invalid_channels, in order; num_mics is their number; importing an exported geometry gives pos as pos_total.", "quantifier": "every geometry and every list of invalid channels", "why_tests_cant": "Infinite domain of lists.", "anchors": ["acoular/microphones.py: MicGeom._get_pos, num_mics, export_mpos, _import_mpos"]}
{"id": "C39", "title": "Deprecated trait names behave as the new ones", "statement": "For every class decorated with a deprecated alias, reading an old name returns the value of the new name and setting it (where allowed) sets the new one, for every sequence of operations; read-only aliases cannot be set.", "quantifier": "every alias table, every sequence of reads and writes on old and new names", "why_tests_cant": "Sequences of operations on arbitrary alias tables.", "anchors": ["acoular/deprecation.py: deprecated_alias"]}
{"id": "C40", "title": "The cache file registry stays usable", "statement": "After any sequence of get_cache_file calls (any caching mode, cache directory and basename changes) the registry's reference count of a file equals the number of objects that use it and no call blocks for ever.", "quantifier": "every sequence of calls", "why_tests_cant": "History property, includes non-termination.", "anchors": ["acoular/h5cache.py: HDF5Cache.get_cache_file"]}
{"id": "C41", "title": "Trajectory sampling honours the requested interval", "statement": "Trajectory.traj(t_start, t_end, delta_t) yields the location at t_start + k*delta_t for exactly those k >= 0 with t_start + k*delta_t < t_end.", "quantifier": "every time interval and step", "why_tests_cant": "Argument defaulting by truth value affects particular numeric values.", "anchors": ["acoular/trajectory.py: Trajectory.traj"]}
{"id": "C42", "title": "Simulated point sources deliver the announced number of samples", "statement": "PointSource.result(num) (and the other simulated sources) yields exactly num_samples rows in blocks honouring the block contract for every num and prepadding setting.", "quantifier": "every num_samples, num, delay and prepadding setting", "why_tests_cant": "Boundary cases (num_samples multiple of num, pre-padding) over infinite families.", "anchors": ["acoular/sources.py: PointSource.result, PointSourceDipole.result, MovingPointSource.result, LineSource.result, SphericalHarmonicSource.result"]}
{"id": "C43", "title": "Repeating a simulation gives the same result", "statement": "Running LineSource.result twice on the same object yields the same data.", "quantifier": "every parameter setting and number of runs", "why_tests_cant": "State mutated by a run only shows on the second run.", "anchors": ["acoular/sources.py: LineSource.result"]}
{"id": "C44", "title": "Time-domain beamforming produces the announced number of samples", "statement": "BeamformerTime.result(num) on a source with N samples and maximum delay d yields blocks whose lengths add up to N - d, for every num.", "quantifier": "every N, num, d", "why_tests_cant": "Boundary cases over an infinite family.", "anchors": ["acoular/tbeamform.py: BeamformerTime.result", "acoular/process.py: SamplesBuffer"]}
{"id": "C45", "title": "Delay-and-sum stays inside its data and is linear", "statement": "_delayandsum4 reads only rows inside the block it is given (result_num = num + max delay + 1), is linear in the data, and with zero fractional delays equals the shifted weighted sum.", "quantifier": "every number of microphones, delays, weights and data", "why_tests_cant": "Out-of-bounds reads are unchecked in compiled code.", "anchors": ["acoular/tfastfuncs.py: _delayandsum4, _delayandsum5, _delays, _modf"]}
{"id": "C46", "title": "Gridless orthogonal beamforming keeps its slots apart", "statement": "BeamformerGridlessOrth stores the source found for each pair (frequency, eigenvalue) in its own result slot.", "quantifier": "every number of frequencies, every eva_list and n", "why_tests_cant": "Index arithmetic for all settings.", "anchors": ["acoular/fbeamform.py: BeamformerGridlessOrth._calc"]}
{"id": "C47", "title": "Travel times follow the flow environment", "statement": "GeneralFlowEnvironment returns travel times for the current flow field parameters, for every sequence of parameter changes and queries.", "quantifier": "every sequence of parameter changes and queries", "why_tests_cant": "History property.", "anchors": ["acoular/environments.py: GeneralFlowEnvironment._r, get_interpolator"]}
{"id": "C48", "title": "Point spread function columns requested are the ones computed", "statement": "After access with grid_indices G, the columns psf[:, G] contain the PSF values for exactly these source points, for every sequence of requests and every calculation mode.", "quantifier": "every grid size, every sequence of grid index requests and calcmodes", "why_tests_cant": "History of partially filled caches.", "anchors": ["acoular/fbeamform.py: PointSpreadFunction._get_psf, calc_psf"]}
{"id": "C49", "title": "Convolution delivers the full linear convolution", "statement": "TimeConvolve.result(num) yields the full linear convolution (length L+M-1) of source and kernel for every kernel length, signal length and num, for all channels.", "quantifier": "every kernel length L >= 1, signal length M >= 1, block size num, channel count", "why_tests_cant": "Partition boundaries over an infinite family.", "anchors": ["acoular/tprocess.py: TimeConvolve.result, _append_to_fdl, _spectral_sum"]}
{"id": "C50", "title": "Repeated evaluation of error metrics gives the same values", "statement": "MetricEvaluator's level errors do not change when evaluated repeatedly, and evaluating them does not change the data handed in.", "quantifier": "every map, target, sector setting and number of evaluations", "why_tests_cant": "History property caused by in-place modification through a view.", "anchors": ["acoular/tools/metrics.py: MetricEvaluator._integrate_sectors, get_specific_level_error"]}
{"id": "C51", "title": "Adaptive integration sectors of distinct targets do not overlap", "statement": "With adaptive_sector_size the circular sectors around distinct target positions have disjoint interiors and radius at most the configured one.", "quantifier": "every list of target positions", "why_tests_cant": "Geometric statement over a continuum.", "anchors": ["acoular/tools/metrics.py: MetricEvaluator._get_sector_radii"]}
{"id": "C52", "title": "Signal generators deliver the requested number of samples with exact looping", "statement": "GenericSignalGenerator.signal() returns num_samples values; with loop_signal value k is source value k mod N, without it the source followed by zeros.", "quantifier": "every source length, num_samples and block structure", "why_tests_cant": "All lengths.", "anchors": ["acoular/signals.py: GenericSignalGenerator.signal"]}
{"id": "C53", "title": "Collecting a stream returns its beginning", "statement": "return_result(source, nmax, num) returns the first nmax rows (all rows when nmax <= 0), independent of num; a source without rows raises ValueError.", "quantifier": "every source, nmax, num", "why_tests_cant": "All lengths and block sizes.", "anchors": ["acoular/tools/helpers.py: return_result"]}
{"id": "C54", "title": "Trigger peak thinning terminates and leaves peaks far enough apart", "statement": "Trigger.trigger_data removes peaks until no two neighbouring peaks are closer than hunk_length times the largest original distance; the process terminates and the retained peaks are a subsequence of the detected ones.", "quantifier": "every list of detected peaks and threshold settings", "why_tests_cant": "Termination and postcondition of a loop over arbitrary lists.", "anchors": ["acoular/tprocess.py: Trigger._get_trigger_data"]}
{"id": "C55", "title": "WAV export never clips", "statement": "WriteWAV.save scales the exported channels so that every written 16-bit sample lies in [-29491, 29491] for every signal with a non-zero exported channel.", "quantifier": "every signal and channel list", "why_tests_cant": "All signals.", "anchors": ["acoular/tprocess.py: WriteWAV.save"]}
{"id": "C56", "title": "Spectral channel layout", "statement": "CrossPowerSpectra yields num_channels values per frequency with the documented layout for every calc_mode and channel count; with the full matrix the entry for (i, j) is conj of (j, i).", "quantifier": "every number of channels and calc_mode", "why_tests_cant": "All channel counts.", "anchors": ["acoular/fprocess.py: CrossPowerSpectra.result, _get_num_channels"]}
{"id": "C57", "title": "A fixed number of samples recorded from a sound card", "statement": "SoundDeviceSamplesGenerator with num_samples set delivers exactly num_samples rows: full blocks, then one shortened block, each a prefix of what the card returned.", "quantifier": "every number of samples, block size and recorded signal", "why_tests_cant": "All lengths and block sizes.", "anchors": ["acoular/sdinput.py: SoundDeviceSamplesGenerator.result"]}
{"id": "C58", "title": "Row-wise processing blocks do not depend on the block size", "statement": "ChannelMixer, TimePower and Calib deliver, for every block size, the source rows transformed one by one (weighted sum / square / calibrated by the factors of the valid channels), cut into blocks of num; a wrong number of weights or factors raises ValueError and nothing is yielded.", "quantifier": "every source, weights, factors, invalid channels, block size", "why_tests_cant": "All signals, lengths and block sizes.", "anchors": ["acoular/tprocess.py: ChannelMixer.result, TimePower.result", "acoular/calib.py: Calib.result"]}
{"id": "C59", "title": "A delivered block keeps its content", "statement": "A block obtained from result(num) keeps its values while the generator goes on, so that a consumer which stores blocks (as TimeReverse and SampleSplitter do) sees the signal; in particular reversing a signal twice gives it back.", "quantifier": "every signal, block size, and every time at which the consumer looks at the block", "why_tests_cant": "Sharing of arrays between a generator and its consumers depends on the combination of blocks and on the history.", "anchors": ["acoular/tprocess.py: TimeReverse.result, FilterBank.result, Mixer.result, MaskedTimeOut.result", "acoular/process.py: SampleSplitter, SamplesBuffer.result", "acoular/fprocess.py: RFFT.result, IRFFT.result"]}
{"id": "C60", "title": "The frequency selection set last is the one used", "statement": "indices (and with it every result that iterates over the selected lines) is the selection the user set last, whether by freq_range or by ind_low/ind_high, and does not depend on whether the selection was read in between.", "quantifier": "every finite history of assignments to freq_range, ind_low, ind_high and of reads", "why_tests_cant": "Cached getters are invalidated by some of the values they use; only particular histories show a stale value.", "anchors": ["acoular/spectra.py: PowerSpectra._set_freq_range, _get_ind_low, _get_ind_high, _set_ind_low, _set_ind_high, _get_indices"]}
{"id": "C61", "title": "Power spectral density times line width is power", "statement": "AutoPowerSpectra with scaling 'psd' delivers the power of the line (scaling 'power') divided by the line width sample_freq / block_size; the power is |X|^2 / block_size^2 (twice that if single-sided), real and non-negative.", "quantifier": "every spectrum, block size, sampling frequency and sidedness", "why_tests_cant": "A scaling law over all sampling frequencies and block sizes.", "anchors": ["acoular/fprocess.py: AutoPowerSpectra._get_scaling_value, result"]}
{"id": "C62", "title": "Functional beamforming sharpens the map and never raises it", "statement": "BeamformerFunctional with gamma = 1 gives the conventional map; its values are non-negative and do not increase with gamma, so for gamma >= 1 they never exceed the conventional map.", "quantifier": "every positive semidefinite cross spectral matrix, geometry, steering vector formulation and pair of exponents", "why_tests_cant": "A family of inequalities over all matrices and real exponents.", "anchors": ["acoular/fbeamform.py: BeamformerFunctional._calc"]}
{"id": "C63", "title": "Capon beamforming never exceeds conventional beamforming", "statement": "BeamformerCapon gives non-negative values that do not exceed those of BeamformerBase (without diagonal removal) for the 'classic' and 'true location' steering vectors.", "quantifier": "every positive definite cross spectral matrix and geometry", "why_tests_cant": "An inequality over all matrices.", "anchors": ["acoular/fbeamform.py: BeamformerCapon._calc"]}
{"id": "C64", "title": "CLEAN-SC results of different lines are independent", "statement": "What BeamformerCleansc stores for a frequency line does not depend on which other lines are computed in the same request.", "quantifier": "every set of lines and every content of their matrices", "why_tests_cant": "Needs particular neighbours (a silent line) in one request.", "anchors": ["acoular/fbeamform.py: BeamformerCleansc._calc"]}
{"id": "C65", "title": "The MUSIC map is normalised", "statement": "BeamformerMusic gives positive values of at most 4e-10 (0 dB), and this value is reached where the response of the noise subspace is smallest.", "quantifier": "every grid and every positive response", "why_tests_cant": "Universally quantified over maps.", "anchors": ["acoular/fbeamform.py: BeamformerMusic._calc"]}
{"id": "C66", "title": "Orthogonal beamforming conserves the power of the considered components", "statement": "The values in the map of BeamformerOrth add up to the sum of the considered eigenvalues divided by the number of channels; after setting n these are the n largest eigenvalues.", "quantifier": "every matrix, grid, list of components", "why_tests_cant": "Holds wherever the maxima fall, also if several components share a grid point.", "anchors": ["acoular/fbeamform.py: BeamformerOrth._calc, set_eva_list"]}
{"id": "C67", "title": "RectGrid.pos reflects the current settings", "statement": "After any history of assignments to x_min, x_max, y_min, y_max, z, increment and any reads of pos, reading RectGrid.pos returns the positions that a fresh grid with the current settings returns.", "quantifier": "every finite history of assignments and reads, every setting", "why_tests_cant": "A test reads pos after one or two assignments; the cached property can be stale only after particular orders of assignment and read.", "anchors": ["acoular/grids.py: RectGrid._get_pos"]}
{"id": "C68", "title": "Integration of a beamformer result over a frequency range", "statement": "BeamformerBase.integrate without frange returns one value per line of the spectrum: the sum of the result over the sector for the lines selected by ind_low and ind_high, zero for the others. With frange = (fmin, fmax) it returns the frequencies of the lines with fmin <= f <= fmax and the sums over the sector for them; with num > 0 one value per band, the sum over the sector and the lines of the band. The answer does not depend on whether a result was read before.", "quantifier": "every spectrum, frequency range, sector and history of earlier reads", "why_tests_cant": "Tests integrate after a result has been read; the first call on a fresh object follows a different path.", "anchors": ["acoular/fbeamform.py: BeamformerBase.integrate"]}
{"id": "C69", "title": "Centre and aperture of an array", "statement": "MicGeom.center is the mean of the positions of the valid microphones (coordinates smaller than 1e-16 are returned as zero) and MicGeom.aperture is the largest distance between two of them.", "quantifier": "every geometry", "why_tests_cant": "Universally quantified over positions.", "anchors": ["acoular/microphones.py: MicGeom._get_center, MicGeom._get_aperture"]}
{"id": "C70", "title": "Simulating a point source reads only the signal", "statement": "PointSource.result never reads outside the array with the oversampled signal.", "quantifier": "every geometry, start times, signal length and padding mode", "why_tests_cant": "The compiled loop does not check bounds; a read outside shows up only by chance.", "anchors": ["acoular/sources.py: PointSource.result, _fill_mic_signal_block"]}
{"id": "C71", "title": "Seeds of uncorrelated noise", "statement": "UncorrelatedNoiseSource uses one seed per channel: pairwise different ones if none are given, the given ones if their number fits, and raises ValueError otherwise.", "quantifier": "every list of seeds and number of channels", "why_tests_cant": "Universally quantified over settings.", "anchors": ["acoular/sources.py: UncorrelatedNoiseSource.result"]}
{"id": "C72", "title": "Noise and sine signals", "statement": "White noise, pink noise, filtered noise and sine generators return exactly num_samples values. Sample k of a sine is amplitude * sin(2 pi freq k/fs + phase); of white noise rms times the k-th random number; of pink noise the scaled sum of white noise and, for each octave j below the (clipped) depth, a noise constant over 2^(j+1) samples and shifted by 2^j - 1; filtered noise is the filter output advanced by half the number of taps.", "quantifier": "every num_samples, depth, number of taps and random stream", "why_tests_cant": "Lengths and shapes for every num_samples and depth.", "anchors": ["acoular/signals.py: WNoiseGenerator.signal, PNoiseGenerator.signal, FiltWNoiseGenerator.signal, SineGenerator.signal"]}
{"id": "C73", "title": "Time-domain beamformer recovers the source signal", "statement": "For a monopole at the focus point, whose signal reaches microphone m with amplitude r0/rm and the assumed delay, the time-domain beamformer with steering formulation II or III returns exactly the source signal; formulation I returns it times the mean of r0/rm, formulation IV times r0*sqrt(sum(1/rm^2)/M), with squared weights summing to 1/M.", "quantifier": "every number of microphones, distances, delays and signals", "why_tests_cant": "Universally quantified over real geometry.", "anchors": ["acoular/tfastfuncs.py: _steer_I, _steer_II, _steer_III, _steer_IV, _delayandsum4"]}
{"id": "C74", "title": "Spatial weights are applied once", "statement": "BeamformerTime with spatial weights multiplies every microphone sample by its weight exactly once, independent of the block size.", "quantifier": "every signal, weight vector, geometry and block size", "why_tests_cant": "The samples shared by neighbouring blocks live in a common buffer; the effect depends on the history of blocks.", "anchors": ["acoular/tbeamform.py: BeamformerTime.result", "acoular/process.py: SamplesBuffer.read_from_buffer"]}
{"id": "C75", "title": "Beamforming on a moving grid uses the position at each sample and stays inside the data", "statement": "BeamformerTimeTraj delivers, for samples 0..S-1, the delay and sum with the delays and amplitudes of the grid position at that sample, reads only existing data, and stops only when the data are used up (S = N - D - 1 for constant largest delay D).", "quantifier": "every motion (largest delay per sample), signal length, block size", "why_tests_cant": "Infinite family of motions and lengths; out-of-bounds reads are unchecked.", "anchors": ["acoular/tbeamform.py: BeamformerTimeTraj.result, _get_moving_gpos", "acoular/tfastfuncs.py: _delayandsum5"]}
{"id": "C76", "title": "CLEAN-T terminates and lowers the residual power", "statement": "The deconvolution loop of the time-domain CLEAN beamformers accepts at most n_iter iterations; each accepted iteration strictly lowers the total power; it stops early only if the next iteration would not lower it; the deconvolved signal at a grid point is damp times the sum of the accepted contributions there and zero elsewhere.", "quantifier": "every state, update function, n_iter", "why_tests_cant": "Loop property for all inputs.", "anchors": ["acoular/tbeamform.py: BeamformerTime.result, BeamformerTimeTraj.result (Cleant branches)"]}
{"id": "C77", "title": "Sector integration over time does not depend on the block size", "statement": "IntegratorSectorTime.result yields for every sample and sector the sum of the values in the sector that exceed the clipping level, independent of the block size.", "quantifier": "every signal, sectors, clip and block size", "why_tests_cant": "All partitions of the stream.", "anchors": ["acoular/tbeamform.py: IntegratorSectorTime.result"]}
{"id": "C78", "title": "Trigger detection finds exactly the samples beyond the threshold", "statement": "The peaks from which Trigger.trigger_data is derived are, in increasing order and without repetition, exactly the samples whose value (dirac) or whose difference to the previous sample (rect) is beyond the signed threshold, independent of the internal block size.", "quantifier": "every signal, threshold, trigger type and block size", "why_tests_cant": "All partitions of the stream.", "anchors": ["acoular/tprocess.py: Trigger._get_trigger_data, _trigger_dirac, _trigger_rect"]}
{"id": "C79", "title": "An interrupted PSF calculation never leaves wrong columns marked as calculated", "statement": "If the calculation of a point spread function stops at any point (exception, interrupt), later requests served from the cache still return correct columns.", "quantifier": "every crash point, grid, request and calculation mode", "why_tests_cant": "Crash points cannot be enumerated by tests.", "anchors": ["acoular/fbeamform.py: PointSpreadFunction._get_psf, calc_psf"]}
{"id": "C80", "title": "PSF values of different frequencies are never mixed up in the cache", "statement": "A request for the point spread function at one frequency never returns columns that were calculated for another frequency.", "quantifier": "every pair of frequencies and every history of requests", "why_tests_cant": "The key is a rounded decimal; the frequencies form a continuum.", "anchors": ["acoular/fbeamform.py: PointSpreadFunction._get_psf, _get_filecache"]}
{"id": "C81", "title": "The gradient used by SODIX is the gradient of what it minimises", "statement": "For a cross spectral matrix that is Hermitian, the derivative handed to the optimiser is, at every point and in every direction, the derivative of the squared distance between the measured matrix and the matrix modelled from directive sources.", "quantifier": "every transfer matrix, Hermitian matrix, amplitudes and direction", "why_tests_cant": "A statement about derivatives at all points of a continuum.", "anchors": ["acoular/fbeamform.py: BeamformerSODIX._calc"]}
{"id": "C82", "title": "Covariance matrix fitting explains the measured matrix and returns the true strengths for exact data", "statement": "The fit has no residual exactly if the sources cause the measured cross spectral matrix (outside the main diagonal, if it is removed); if the matrix is that of uncorrelated sources on the grid and determines them, every solution returns their strengths. The function and derivative handed to L-BFGS belong together.", "quantifier": "every transfer matrix, Hermitian matrix, unit multiplier, with and without diagonal removal", "why_tests_cant": "Ranges over all matrices and all solutions of an optimisation problem.", "anchors": ["acoular/fbeamform.py: BeamformerCMF._calc"]}
{"id": "C83", "title": "The GIB map superposes all eigenmodes", "statement": "The value of the generalised inverse beamforming map at a point is the sum of the squared magnitudes of the amplitudes found at that point for all processed eigenmodes; lines without positive eigenvalues give zero.", "quantifier": "every number of eigenmodes, eigenvalues, points, beta, number of iterations and sequence of lines", "why_tests_cant": "Depends on what earlier eigenmodes and lines left behind.", "anchors": ["acoular/fbeamform.py: BeamformerGIB._calc"]}
{"id": "C84", "title": "The unit multiplier does not change the result of inverse methods", "statement": "The set of possible results of CMF and DAMAS+ does not depend on unit_mult.", "quantifier": "every system of equations, penalty and pair of positive multipliers", "why_tests_cant": "Ranges over all solutions of optimisation problems and a continuum of multipliers.", "anchors": ["acoular/fbeamform.py: BeamformerCMF._calc, BeamformerDamasPlus._calc"]}
{"id": "C85", "title": "The GIB map does not depend on the phase of the eigenvectors", "statement": "Eigenvectors are determined up to a factor of magnitude one only; whichever factor the eigenvalue routine chooses, the map is the same.", "quantifier": "every factor, transfer matrix, number of modes and iterations", "why_tests_cant": "The choice of the factor is up to the linear algebra library.", "anchors": ["acoular/fbeamform.py: BeamformerGIB._calc"]}
{"id": "C86", "title": "Points of a line grid", "statement": "A line grid has num_points points; the first is loc, the last lies at the distance length from it in the given direction, neighbours are length/(num_points-1) apart; with one point that point is loc.", "quantifier": "every location, direction, length and number of points", "why_tests_cant": "Ranges over a continuum of geometries and all numbers of points.", "anchors": ["acoular/grids.py: LineGrid._get_pos"]}
{"id": "C87", "title": "A merged grid consists of the points of its grids, each once, and names the grid of every point", "statement": "The positions of a MergeGrid are exactly the positions of its grids without duplicates, size is their number, and subgrids holds for each of them the name of the grid it comes from.", "quantifier": "every list of grids", "why_tests_cant": "All lists of grids, with any duplicates in any order.", "anchors": ["acoular/grids.py: MergeGrid._get_pos, _get_size, _get_subgrids"]}
{"id": "C88", "title": "Membership in convex sectors", "statement": "With include_border, a grid point is in a ConvexSector exactly if it is in the convex hull of the edges; without, exactly if it is in the interior.", "quantifier": "every set of corners, triangulation and point", "why_tests_cant": "The triangulation is chosen by a library; a continuum of points.", "anchors": ["acoular/grids.py: in_hull, ConvexSector.contains"]}
{"id": "C89", "title": "The filters of an octave filter bank belong to its current settings", "statement": "Whatever was read or set before, the result of an OctaveFilterBank is that of the filters for its current lband, hband, fraction and source.", "quantifier": "every history of changes and reads", "why_tests_cant": "All histories; a test constructs a fresh object.", "anchors": ["acoular/tprocess.py: FilterBank.sos, OctaveFilterBank._get_sos, FilterBank.result"]}
{"id": "C90", "title": "Band edges of octave filters", "statement": "A band is either refused with a ValueError (exactly if its centre is above sample_freq/(2 sqrt 2)) or its edges lie in order within the nominal band and below half the sampling frequency, with the centre as their geometric mean; also for the zero phase variant.", "quantifier": "every centre frequency, sampling frequency, fraction and order", "why_tests_cant": "Continuum of frequencies, every order.", "anchors": ["acoular/tprocess.py: FiltOctave._get_sos, FiltFiltOctave._get_sos"]}
{"id": "C91", "title": "Exponential averaging settles with its time constant and stays in range", "statement": "The response of TimeExpAverage to a constant signal c is c (1 - exp(-(k+1)/(tau fs))) at sample k, for every block size, and every output lies within the range spanned by zero and the input.", "quantifier": "every time constant, sampling frequency, signal and block size", "why_tests_cant": "Continuum of signals and parameters and all lengths.", "anchors": ["acoular/tprocess.py: TimeExpAverage"]}
{"id": "C92", "title": "The moving grid is a rigid motion of the grid", "statement": "At every sample the positions of the grid of a BeamformerTimeTraj are obtained by a rotation and a translation: distances are kept, the x axis points in the direction of motion and the y axis is perpendicular to rvec; without rvec it is only translated. The positions are not numbers exactly if rvec is not zero and parallel to the velocity.", "quantifier": "every trajectory point, velocity, reference vector and grid", "why_tests_cant": "Continuum of positions and directions.", "anchors": ["acoular/tbeamform.py: BeamformerTimeTraj._get_moving_gpos"]}
{"id": "C93", "title": "The guessed trigger threshold", "statement": "Without a threshold, Trigger uses 75 % of the largest deviation of the signal from its mean, whatever the block size, and finds the samples that deviate by more.", "quantifier": "every signal and block size", "why_tests_cant": "All signals and block sizes.", "anchors": ["acoular/tprocess.py: Trigger._threshold, _trigger_value_comp"]}
{"id": "C94", "title": "Directivity of spherical harmonic sources", "statement": "The signal of a SphericalHarmonicSource at a microphone is that of the monopole, weighted with the (complex) directivity in the direction of the microphone, independent of the block size.", "quantifier": "every directivity, signal and block size", "why_tests_cant": "Continuum of directivities, all block sizes.", "anchors": ["acoular/sources.py: SphericalHarmonicSource.transform"]}
{"id": "C95", "title": "The inverse transform of the transform is the signal", "statement": "IRFFT of an RFFT with rectangular window, without overlap and scaling delivers the samples of the source that fill complete blocks, in output blocks of any size, and announces their number.", "quantifier": "every signal, even block size and output block size", "why_tests_cant": "All signals and all combinations of block sizes.", "anchors": ["acoular/fprocess.py: RFFT, IRFFT"]}
{"id": "C96", "title": "Angle of a uniformly rotating shaft", "statement": "The angle tracker, given one trigger per revolution at constant spacing, reports at every sample the angle of the uniform rotation: the start angle at the first trigger, advancing by one turn (in the given direction) per trigger spacing, modulo a full turn; the same with several triggers per revolution, advancing by the corresponding fraction.", "quantifier": "every trigger offset and spacing, number of triggers, number of spline points, direction, start angle, number of triggers per revolution and sample", "why_tests_cant": "The choice of the spline window depends on integer divisions of the sample index by trigger differences; a test sees one spacing and usually one trigger per revolution.", "anchors": ["acoular/tprocess.py: AngleTracker._to_rpm_and_angle, angle"]}
{"id": "C97", "title": "Momentary and average rotational speed agree", "statement": "For a uniform rotation the angle tracker's average speed is 60 times the sampling frequency divided by trigger spacing and triggers per revolution, and the momentary speed at every sample equals the average speed.", "quantifier": "every trigger offset and spacing, number of triggers, triggers per revolution, sampling frequency and sample", "why_tests_cant": "One setting of triggers per revolution (1) hides a missing division.", "anchors": ["acoular/tprocess.py: AngleTracker._to_rpm_and_angle, rpm, average_rpm"]}
{"id": "C98", "title": "Constant rotation does not depend on the block size", "statement": "The spatial interpolator for constant rotation computes row n of its output from row n of the source and the angle n times rotational speed (2\u03c0 per revolution) divided by the sampling frequency, for every block size; the blocks obey the block contract.", "quantifier": "every rotational speed, sampling frequency, interpolation method, signal and block size", "why_tests_cant": "The angle is carried from block to block through the last entry of a linspace; a test uses one block size.", "anchors": ["acoular/tprocess.py: SpatialInterpolatorConstantRotation.result"]}
{"id": "C99", "title": "Interpolation between the microphones of a ring", "statement": "For a ring of microphones and linear interpolation, a virtual microphone which the rotation has brought to a microphone position gets that microphone's sample; between neighbours the value is interpolated linearly (also across the \u00b1\u03c0 seam); all values stay within the range of the samples. With the virtual microphones equal to the microphones and no rotation the data are unchanged, for every orientation matrix.", "quantifier": "every set of different microphone angles, virtual angles, rotation angle, samples and orientation matrix", "why_tests_cant": "Sorting, wrapping and the seam of the circle can only be sampled.", "anchors": ["acoular/tprocess.py: SpatialInterpolator._virtNewCoord_func, _result_core_func"]}
{"id": "C100", "title": "Inverse distance weighting interpolates", "statement": "With inverse distance weighting each virtual microphone gets a weighted mean of samples (within their range), for any number of virtual microphones; virtual microphones that coincide with microphones get their samples unchanged, wherever the array plane is.", "quantifier": "every array, virtual array, power, number of neighbours and samples", "why_tests_cant": "Array shapes and heights other than those in a test may break it.", "anchors": ["acoular/tprocess.py: SpatialInterpolator._result_core_func"]}
{"id": "C101", "title": "Power weighting gives constant power per array area", "statement": "With the spatial weighting 'power' of the time domain beamformers, the sum of the squared weights of the microphones on each ring (equal distance from the centre, after rounding) is proportional to the area of the ring, with the same factor for all rings, for every array.", "quantifier": "every list of (relative, rounded) distances of the microphones from the centre", "why_tests_cant": "The claim relates histogram bins, unique values and counts for arbitrary arrays.", "anchors": ["acoular/tbeamform.py: const_power_weight"]}
{"id": "C102", "title": "Bar spectra show complete bands with their band sums", "statement": "barspectrum returns those octave or third-octave bands (nominal centre frequencies) that lie within the frequency range of the spectrum, i.e. every band between the second and the last FFT frequency and no other; the plottable curve (also that of bardata) has one bar per returned band whose height is the sum of the spectral lines in the band and whose borders are the band limits (means of adjacent limits between two bands, shifted by xoffset).", "quantifier": "every spectrum with sorted frequencies, octave and third-octave bands, every xoffset; for bardata every list of centre frequencies and values", "why_tests_cant": "The selection depends on how 30 nominal frequencies fall relative to arbitrary frequency ranges; boundary and empty cases are not enumerable.", "anchors": ["acoular/tools/helpers.py: barspectrum, bardata"]}
{"id": "C103", "title": "Speed of sound in air is plausible over the whole valid range", "statement": "c_air raises ValueError for temperatures, pressures or CO2 concentrations outside the documented range; inside it, for non-negative humidity and concentration, the value lies between 330 and 353 m/s, grows with temperature and with humidity and falls with the CO2 concentration; arguments that are not physical are refused.", "quantifier": "all real temperatures, humidities, pressures and concentrations", "why_tests_cant": "The domain is a four-dimensional continuum; samples cannot show monotony or bounds.", "anchors": ["acoular/tools/helpers.py: c_air", "acoular/tools/utils.py: mole_fraction_of_water_vapor"]}
{"id": "C104", "title": "Reference, distances and transfer matrix of a steering vector", "statement": "A number assigned to ref of a steering vector is the reference distance of all grid points (its sign is ignored), three coordinates are a reference position whose travel distance to each grid point is used; anything else is refused. The transfer matrix has one row per grid point and one column per microphone with amplitude r0/rm and the phase of a wave that has travelled rm - r0; with a list of indices it consists of the corresponding rows.", "quantifier": "every grid, array, environment (travel distance), reference, frequency and index list", "why_tests_cant": "Shapes of arrays decide here (e.g. one microphone only); no finite set of arrays covers them.", "anchors": ["acoular/fbeamform.py: SteeringVector._set_ref, SteeringVector._get_r0, SteeringVector._get_rm, SteeringVector.transfer", "acoular/fastFuncs.py: calcTransfer, _transferCoreFunc"]}
{"id": "C105", "title": "Emission times of moving sources", "statement": "For a source that moves on a trajectory slower than sound, the sound received at a microphone at time t is that emitted at the unique time te with te + distance(te)/c = t; the computed emission time and distance agree with it up to the accuracy of the time resolution (0.1 upsampled sample).", "quantifier": "every subsonic trajectory, microphone position, receiving time and accuracy", "why_tests_cant": "The emission times result from an iteration along an arbitrary curve; convergence cannot be established by examples.", "anchors": ["acoular/sources.py: MovingPointSource.result, MovingPointSourceDipole.get_emission_time, MovingLineSource.get_emission_time"]}
{"id": "C106", "title": "Convective amplification of moving sources", "statement": "With conv_amp the sound pressure of a moving monopole is divided by (1 - M)^2, where M is the Mach number of the motion towards the microphone: an approaching source is louder, a receding one quieter; without motion nothing changes.", "quantifier": "every trajectory, microphone position and time", "why_tests_cant": "Depends on the relative position of all microphones to the path.", "anchors": ["acoular/sources.py: MovingPointSource.result"]}
{"id": "C107", "title": "Moving dipoles are dipoles carried along", "statement": "A moving dipole consists of two monopoles of opposite sign at half the pole distance on both sides of its position at the emission time of the respective microphone, in the direction carried along (rotated rigidly with the reference vector, if any), each with the retardation of its own position; at rest it agrees with the fixed dipole.", "quantifier": "every trajectory, reference vector, direction and array", "why_tests_cant": "Directions and trajectories form a continuum; with one microphone and a straight path most of the claim is invisible.", "anchors": ["acoular/sources.py: MovingPointSourceDipole.get_moving_direction, MovingPointSourceDipole.result"]}
{"id": "C108", "title": "Moving line sources are sums of moving monopoles", "statement": "Sample k of a moving line source is the sum over its monopoles of what a moving point source would give for sample k: the same receiving time (start + k / sampling frequency) and the same treatment of convective amplification for every monopole.", "quantifier": "every start time, sampling frequency, sample, number of monopoles and Mach numbers", "why_tests_cant": "An offset of one sample and the treatment of inner monopoles are not visible in examples without motion or with a single monopole.", "anchors": ["acoular/sources.py: MovingLineSource.result"]}
{"id": "C109", "title": "Sound rays in general flows obey geometrical acoustics", "statement": "For every flow field, the rays followed back from a microphone by the general flow environment are sound rays in the reversed flow: position and wave slowness obey Hamilton's equations with the Hamiltonian c|s| - v(x).s; each ray starts in the given direction of the wave normal; in a uniform flow the rays are straight and the time at which a ray passes a point is the travel time of sound from there.", "quantifier": "every flow field with its Jacobian, every position, slowness and direction", "why_tests_cant": "Positions and directions form a continuum; a wrong term shows only as a small shift of travel times in sheared flows.", "anchors": ["acoular/environments.py: GeneralFlowEnvironment.get_interpolator"]}
{"id": "C110", "title": "Sound pressure levels", "statement": "The level computed from a squared sound pressure is 10 lg(x / (20 uPa)^2) for every value from 4e-45 on and -350 dB for all smaller values, zero and negative ones included; it never decreases with the value, the value can be recovered from it, a gain of g dB adds g dB and the level of a sum is the energetic sum of the levels.", "quantifier": "every real squared sound pressure", "why_tests_cant": "A test samples a few values; the floor and the behaviour next to it concern a continuum.", "anchors": ["acoular/fbeamform.py: L_p"]}
{"id": "C111", "title": "Radiation angles of spherical harmonic sources", "statement": "The azimuth and elevation of a microphone as seen from a source with an orientation depend only on the position of the microphone relative to the source and not on its distance or on the length of the direction; the azimuth is in [0, 2 pi), the elevation in [0, pi]; turning source and microphone together about any axis changes neither.", "quantifier": "every direction, microphone and source position, every rotation", "why_tests_cant": "Directions and rotations form continua; a test for the axes does not show that the angles turn with the source.", "anchors": ["acoular/sources.py: get_radiation_angles"]}
{"id": "C112", "title": "Modes of spherical harmonic sources", "statement": "For every maximum order the modes are the (lOrder+1)^2 spherical harmonics, each in the column l^2+l+m, and their real parts, which scale the signals, are the real spherical harmonics; the radiation does not depend on how source and microphone are turned together.", "quantifier": "every maximum order, degree and order, direction and microphone position", "why_tests_cant": "Orders are unbounded and positions form a continuum; a permuted column or a missed conjugation is invisible for a source of order zero.", "anchors": ["acoular/sources.py: get_modes"]}
{"id": "C113", "title": "Frequency weighting filters", "statement": "At every sampling frequency the A, C and Z weighting filters are stable, remove a constant offset (A and C) or change nothing (Z), and have, at every frequency below half the sampling frequency, the gain of the curve of IEC 61672, which is 0 dB at 1 kHz.", "quantifier": "every sampling frequency and every frequency", "why_tests_cant": "Sampling frequencies and frequencies form continua; a test for one sampling frequency says nothing on the stability or the gain at others.", "anchors": ["acoular/tprocess.py: FiltFreqWeight._get_sos"]}
{"id": "C114", "title": "Point sources with impulse responses", "statement": "A point source with impulse responses delivers, at each microphone, the linear convolution of its signal with the impulse response of that microphone (the single one, if only one is given), in blocks of the requested size and wherever the source is; it declares the number of samples it delivers; a wrong number of impulse responses or a signal without samples is refused.", "quantifier": "every signal, set of impulse responses, number of microphones and block size", "why_tests_cant": "Signal lengths, impulse response lengths and block sizes interact; losses occur for particular combinations only.", "anchors": ["acoular/sources.py: PointSourceConvolve.result", "acoular/tprocess.py: TimeConvolve.result"]}
{"id": "C115", "title": "Integration over sectors without predefined grid", "statement": "For methods that find source positions without a grid, integrating over a sector gives, for every frequency line, the sum of the levels of the components found inside the sector, whether or not the map has been requested before and whatever has been changed since; complementary sectors share the total.", "quantifier": "every set of frequencies and components, found positions and levels, every sector and history of the object", "why_tests_cant": "The order of requests and changes matters; a test that requests the map first sees correct values.", "anchors": ["acoular/fbeamform.py: BeamformerAdaptiveGrid.integrate, BeamformerGridlessOrth._calc", "acoular/grids.py: Grid.subdomain"]}
{"id": "C116", "title": "Eigenvalues of frequency bands", "statement": "The synthetic eigenvalues of a band are the sums of the eigenvalues of exactly its lines, in ascending order, and sum up to the power of all channels in the band; a band without lines, or a frequency beyond the analysed range, gives zeros as in the synthesis of maps, so that adjacent bands add up.", "quantifier": "every set of frequency lines and cross spectral matrices, every centre frequency and band width", "why_tests_cant": "Empty bands occur for particular combinations of line distance and band width; the relation of eigenvalues and power must hold for all matrices.", "anchors": ["acoular/spectra.py: PowerSpectra.synthetic_ev, PowerSpectra.calc_ev"]}
{"id": "C117", "title": "The kind of steering vector object does not matter", "statement": "For steering vectors of the class itself, which are handled by specialised functions, and for those of derived classes, which are handled by general ones, every map is the quadratic form of the cross spectral matrix (given as such or by its eigenvalues and eigenvectors) with the steering vectors the object provides, the normalisation factor is their squared length, and the point spread function is the squared product of steering vectors and transfer functions.", "quantifier": "every steering vector object, grid, array, frequency, cross spectral matrix and set of source points", "why_tests_cant": "Two independent implementations have to agree for all distances, matrices and formulations.", "anchors": ["acoular/fbeamform.py: BeamformerBase._beamformer_params, PointSpreadFunction._psf_call", "acoular/fastFuncs.py: beamformerFreq, calcPointSpreadFunction"]}
{"id": "C118", "title": "The gridless search maximises the map", "statement": "The position that the gridless method looks for is the position inside the bounds where the map of the component, with the steering vectors in use, is largest.", "quantifier": "every steering vector object, environment, bounds, frequency and component", "why_tests_cant": "The search evaluates points in a continuum; with the default reference position and formulation a difference is invisible.", "anchors": ["acoular/fbeamform.py: BeamformerGridlessOrth._calc"]}
{"id": "C119", "title": "New samples are noticed", "statement": "After new samples have been assigned to a source, the identifier of the source and the cross spectral matrix of a spectra object using it, when read again, are those of the new samples.", "quantifier": "every array, every sequence of assignments of samples or of the first valid sample, and reads", "why_tests_cant": "Whether a stored value is outdated depends on the whole history of the object.", "anchors": ["acoular/sources.py: TimeSamples.digest, TimeSamples._load_shapes, MaskedTimeSamples.digest, MaskedTimeSamples._load_shapes", "acoular/spectra.py: PowerSpectra.csm"]}
{"id": "C120", "title": "Lines, frequencies and tones", "statement": "The frequencies announced for a spectrum are k fs / N for the lines k = 0 to N / 2, one for each line; a tone with the frequency announced for a line appears in this line only, with amplitude scaling with its complex amplitude whatever the block size, and in the cross spectral matrix with half the product of the amplitudes and the phase difference of the channels; odd block sizes are refused, and exactly complete one-sided spectra are accepted by the inverse transform.", "quantifier": "every even block size, sampling frequency, line, amplitude, phase, number of channels, overlap and number of samples", "why_tests_cant": "Amplitudes, phases and frequencies form continua, and the claim is for every block size and line.", "anchors": ["acoular/spectra.py: BaseSpectra.fftfreq, PowerSpectra.calc_csm", "acoular/fprocess.py: RFFT.freqs, RFFT.result, RFFT.block_size, IRFFT._validate"]}
{"id": "C121", "title": "The power of the spectrum is the power of the signal", "statement": "The auto powers of a channel in the cross spectral matrix, summed up over all lines, are the mean square of the samples of the channel.", "quantifier": "every signal, number of blocks and block size (and, with weights, every window function and overlap)", "why_tests_cant": "Signals form a continuum of any dimension.", "anchors": ["acoular/spectra.py: PowerSpectra.calc_csm, PowerSpectra.num_blocks"]}
{"id": "C122", "title": "From samples to the map of a tone", "statement": "If microphones record a tone of a monopole source, the beamforming map computed from the samples at the frequency of the tone is, at the position of the source, the mean square of the tone at the reference ('inverse', 'true level'), is nowhere higher than there ('classic', 'true location'), and is everywhere this mean square times the point spread function; removing the diagonal keeps the level at the position of the source.", "quantifier": "every array, source and focus position, amplitude, phase, line, block size, overlap, number of samples and speed of sound", "why_tests_cant": "Involves the whole chain from samples to maps for a continuum of positions and signals.", "anchors": ["acoular/spectra.py: PowerSpectra.calc_csm", "acoular/fbeamform.py: BeamformerBase._calc, SteeringVector", "acoular/fastFuncs.py: beamformerFreq"]}
{"id": "C123", "title": "Regularisation of generalised inverse beamforming", "statement": "With method 'Suzuki', the amplitudes of an eigenmode in every iteration minimise the squared deviation between the mode and the field of the sources plus eps_perc times the largest eigenvalue times the weighted squared amplitudes.", "quantifier": "every transfer matrix, eigenmode, set of points in use, positive weights and value of eps_perc", "why_tests_cant": "Matrices and amplitudes form continua; minimality ranges over all other amplitudes.", "anchors": ["acoular/fbeamform.py: BeamformerGIB._calc, BeamformerGIB.eps_perc"]}
{"id": "C124", "title": "Identifiers of simulated sources determine their output", "statement": "Two point, moving point, moving dipole or line sources of the same class with the same identifier deliver the same blocks of samples, so that results stored under the identifier belong to the source.", "quantifier": "every pair of sources of a class with any settings whose printed forms tell them apart", "why_tests_cant": "The claim compares all pairs of settings; a setting that was forgotten in the identifier shows up only for pairs that differ in exactly this setting.", "anchors": ["acoular/sources.py: PointSource.digest, PointSource.result, MovingPointSource.digest, MovingPointSource.result, MovingPointSourceDipole.digest, MovingPointSourceDipole.result, LineSource.digest, LineSource.result"]}
{"id": "C125", "title": "Chains of processing blocks", "statement": "For every tree of connected objects (recorded data, selection of samples and channels, calibration, squares, sums of channels, averages, running averages, filters, zero phase filters, time reversal, caches with any history, writing to file, mixing) the samples delivered by the last one are the composition of what the single objects stand for, in blocks of the size asked for, whatever this size is; and the number of samples announced is the number delivered.", "quantifier": "every tree of objects of any depth, with any settings, data and cache histories, and every block size", "why_tests_cant": "The number of combinations is unbounded; tests connect two or three objects with a few block sizes.", "anchors": ["acoular/process.py: Average.result, Cache.result", "acoular/tprocess.py: MaskedTimeOut.result, Mixer.result, ChannelMixer.result, TimePower.result, TimeCumAverage.result, TimeReverse.result, Filter.result, FiltFiltOctave.result, WriteH5.result", "acoular/sources.py: TimeSamples.result", "acoular/calib.py: Calib.result"]}
{"id": "C126", "title": "Two ways to the cross spectral matrix agree", "statement": "Averaging the cross power spectra (one-sided, all entries) of the windows of RFFT over all windows delivers the cross spectral matrix of PowerSpectra for the same block size, overlap and window function, and averaging the auto power spectra delivers its diagonal.", "quantifier": "every multichannel signal, block size, overlap, window function and number of averages per block", "why_tests_cant": "Equality of two algorithms for all signals; rounding and the length of the test signal hide differing divisors.", "anchors": ["acoular/fprocess.py: RFFT.result, AutoPowerSpectra.result, CrossPowerSpectra.result", "acoular/process.py: Average.result", "acoular/spectra.py: PowerSpectra.csm, PowerSpectra.num_blocks"]}
{"id": "C127", "title": "The identifier of a beamformer determines its result", "statement": "If two frequency domain beamformers of the same class have the same identifier, every line of their results is the same, so results kept under the identifier (in memory or in a cache file) are never returned for other settings; and inverse methods, which do not use the formulation of the steering vector, have identifiers that do not depend on it.", "quantifier": "every class of frequency domain beamformer with the exception of SODIX, all settings, frequencies, matrices, geometries and numerical routines", "why_tests_cant": "A forgotten setting is noticed only if a test changes exactly this setting, keeps everything else and reuses the cache.", "anchors": ["acoular/fbeamform.py: BeamformerBase.digest and the digest property of every beamformer, SteeringVector.digest, SteeringVector.inv_digest, _calc of every beamformer", "acoular/internal.py: digest"]}
{"id": "C128", "title": "Deconvolution returns the sources of exact data", "statement": "For the cross spectral matrix of incoherent monopoles at grid points the conventional map is the sum of their point spread functions weighted with their powers; DAMAS converges to the powers, and CLEAN finds the power of a single source at its position and nowhere else.", "quantifier": "every array, grid, wave number, set of sources and powers, damping and number of iterations", "why_tests_cant": "The stages are tested one by one; whether their conventions (normalisation, diagonal, index order) agree shows only in the composition, for all geometries.", "anchors": ["acoular/fbeamform.py: BeamformerBase._calc, PointSpreadFunction._psf_call, BeamformerDamas._calc, BeamformerClean._calc", "acoular/fastFuncs.py: beamformerFreq, calcPointSpreadFunction, damasSolverGaussSeidel"]}
{"id": "C129", "title": "CLEAN-SC removes a single source exactly", "statement": "For the cross spectral matrix of a single source CLEAN-SC reports the power of the source at its position and nothing anywhere else, up to the damping and the number of iterations: the component that is subtracted is the matrix of the source.", "quantifier": "every source power, damping, stop criterion and number of iterations, every array with or without diagonal removal", "why_tests_cant": "The subtracted component is the limit of an inner iteration; tests compare maps of a simulated case with stored maps.", "anchors": ["acoular/fbeamform.py: BeamformerCleansc._calc, BeamformerBase.sig_loss_norm"]}
{"id": "C130", "title": "Zero phase filters deliver the filtered signal and nothing else", "statement": "FiltFiltOctave.result delivers the whole signal of its source filtered in one piece, cut into blocks of the size asked for; every delivered sample depends on the samples of the source only, never on the content of uninitialised memory.", "quantifier": "every signal, filter, block size, and every source, whether or not it delivers as many samples as it announces", "why_tests_cant": "Uninitialised memory often happens to be zero; a test cannot show that no content of it has an influence.", "anchors": ["acoular/tprocess.py: FiltFiltOctave.result"]}
{"id": "C131", "title": "What is recorded can be loaded again", "statement": "A file written by WriteH5 holds all samples of the source in their order, the sampling rate and the metadata, and when the recording is interrupted at any block it holds everything up to there; a TimeSamples object to which the name of a file is assigned shows the content of this file and nothing of what it held before; a recording that fails does not destroy an existing one.", "quantifier": "every signal, division into blocks, precision, metadata, point of interruption, library and history of assignments", "why_tests_cant": "Crash points and histories of assignments are unbounded, metadata arbitrary; tests write and read one file.", "anchors": ["acoular/tprocess.py: WriteH5.save, WriteH5.result, WriteH5.get_initialized_file, WriteH5.add_metadata", "acoular/h5files.py: H5FileTables, H5FileH5py", "acoular/sources.py: TimeSamples._load_data, TimeSamples._load_metadata, MaskedTimeSamples._load_data"]}
{"id": "C132", "title": "Rotation with tracked angles uses the angle of each sample", "statement": "SpatialInterpolatorRotation.result delivers, for every source and angle tracker, one row per sample of the source, computed with the angle that the tracker reports for this sample, whatever the block size.", "quantifier": "every signal, tracker, interpolation, block size and length of the array of angles", "why_tests_cant": "Needs all combinations of block size, number of samples and number of angles; the class is excluded from test coverage.", "anchors": ["acoular/tprocess.py: SpatialInterpolatorRotation.result, SpatialInterpolator._result_core_func, AngleTracker.angle"]}
{"id": "C133", "title": "A spherical harmonic source is a point source with a directivity", "statement": "SphericalHarmonicSource.result delivers, for every microphone and sample, the signal at the time of emission divided by the distance and weighted with the directivity towards the microphone, whatever the block size; with order zero this is a point source; and the identifier tells sources with different output apart.", "quantifier": "every microphone geometry, signal, order, coefficients, direction, start times, oversampling and block size", "why_tests_cant": "Continuous geometry and timing; tests check the number of samples and the type only.", "anchors": ["acoular/sources.py: SphericalHarmonicSource.result, SphericalHarmonicSource.transform, SphericalHarmonicSource.digest, get_modes"]}
{"id": "C134", "title": "A moving source that does not move is a source at rest", "statement": "For a trajectory that stays at one place MovingPointSource and MovingLineSource deliver the same samples as PointSource and LineSource at this place, for every start time, and their identifier tells different trajectories apart.", "quantifier": "every place, array, signal, start times, oversampling, number of monopoles, block size", "why_tests_cant": "Two implementations of the same physics have to agree for all settings; the tests use the default start times and check numbers of samples.", "anchors": ["acoular/sources.py: MovingPointSource.result, MovingLineSource.result, MovingLineSource.get_emission_time, MovingLineSource.get_moving_direction, MovingLineSource.digest, PointSource.result, LineSource.result"]}
{"id": "C135", "title": "Objects that share a cache file get their own samples", "statement": "All objects whose recording has the same base name keep their cached samples in one file. After any history of runs of any of these objects, in any mode and with any block size, each stopped anywhere, every chain with caches anywhere in it delivers the signal it stands for, never samples of another object.", "quantifier": "every family of chains, every history of interrupted runs of caches in it, every chain and block size", "why_tests_cant": "Depends on all pairs of chains with all settings and on all histories; tests use a fresh cache directory and few objects.", "anchors": ["acoular/process.py: Cache.result, Cache._get_data_from_cache, Cache.digest", "acoular/internal.py: digest, ldigest", "acoular/tprocess.py: Mixer._set_sourcesdigest, MaskedTimeOut.digest", "acoular/h5cache.py: get_cache_file"]}
{"id": "C136", "title": "Benchmark files: the cross spectral matrix does not depend on the convention of the writer", "statement": "The cross spectral matrix that CsmAIAABenchmark reads from a benchmark file (which holds scale times the sum of conj(P_m) P_n over the blocks, with the transform P whose sign is stated in the file) is the one that PowerSpectra computes from the same blocks of time data, for both signs of the transform; it is Hermitian. After every history of assigning files, assigning matrices and reading, the matrix read is that of the existing file assigned last, and reading before a file was assigned raises. All lines of the file are used. The samples and the tacho signal are delivered complete and in order. Files with different contents have different identifiers, and a matrix assigned to csm is read back.", "quantifier": "Every number of microphones, lines and blocks, all time data, block lengths and both signs; every history of assignments and reads; every disk; every block size.", "why_tests_cant": "A test compares one file with stored numbers; the agreement with the matrices computed by acoular itself for every signal and both conventions, and histories of assignments, need a proof.", "anchors": ["acoular/aiaa/aiaa.py:CsmAIAABenchmark", "acoular/aiaa/aiaa.py:TimeSamplesAIAABenchmark", "acoular/aiaa/aiaa.py:TriggerAIAABenchmark", "acoular/spectra.py:PowerSpectraImport", "acoular/tools/utils.py:get_file_basename"]}
{"id": "C137", "title": "A sample splitter can be used by several threads", "statement": "Objects that are registered at a SampleSplitter and consume its blocks in threads of their own receive, under every interleaving of the threads, every block of the source once, in the order of the source, until the source is exhausted; the loss of a block is reported as asked for, and no thread fails for another reason.", "quantifier": "Every number of registered objects, every source, buffer size and overflow treatment, every interleaving of the accesses of the threads to the shared data.", "why_tests_cant": "The failing interleavings last microseconds and do not occur in tests; all schedules have to be covered.", "anchors": ["acoular/process.py: SampleSplitter.result, SampleSplitter._fill_block_buffers, SampleSplitter._inspect_buffer_levels, SampleSplitter._create_source_generator, LockedGenerator"]}
{"id": "C138", "title": "Several threads can ask for cache files at the same time", "statement": "Objects that ask for their cache file from several threads are served one at a time: a file is opened once, all objects with the same file share it, no call raises because of another one, and when all calls have ended later ones are served.", "quantifier": "Every number of threads, every assignment of files to objects, every interleaving of the accesses to the registry, both file libraries.", "why_tests_cant": "The window between the test of the flag and setting it lasts less than a microsecond; all schedules have to be covered.", "anchors": ["acoular/h5cache.py: HDF5Cache.get_cache_file, HDF5Cache._idle_if_busy"]}
{"id": "C139", "title": "Two consumers can read the same cached source in turn", "statement": "When several generators of one Cache object are advanced in any order - two branches of a chain that begin with the same cached source, or one consumer that starts while another is still running - every one of them delivers the blocks of the source and ends, and the file is left in a state later runs can use.", "quantifier": "Every source, every number of generators with their own block sizes and caching modes, every state the file was left in, every order of requests, both file libraries.", "why_tests_cant": "The outcome depends on the order of requests and on the number of samples modulo the block size; tests run one generator after the other.", "anchors": ["acoular/process.py: Cache.result, Cache._write_data_to_cache, Cache._get_data_from_cache, Cache._get_data_from_incomplete_cache", "acoular/h5files.py: H5FileTables.remove_data, H5FileH5py.remove_data"]}
{"id": "C140", "title": "Objects can join and leave a sample splitter while others are running", "statement": "An object that is registered at a SampleSplitter while others are consuming blocks receives from then on every block of the source, in order, or an error if its buffer overflows; removing an object has no effect on the others.", "quantifier": "Every source, every number of objects with their sizes and treatments, every history of registrations, removals, new generators and requests within one pass of the source.", "why_tests_cant": "Tests register all objects before the run; the effects depend on the order of registration, start and removal.", "anchors": ["acoular/process.py: SampleSplitter.register_object, SampleSplitter.remove_object, SampleSplitter.result, SampleSplitter._inspect_buffer_levels, SampleSplitter._create_source_generator"]}
{"id": "C141", "title": "One source: place and level in the maps of the beamformers", "statement": "For the exact cross spectral matrix of one monopole at a grid point (sound pressure from the positions, the frequency and the speed of sound, relative to the reference), the beamformers show the source where it is and with its level: with 'inverse' and 'true level' the value at its grid point is the mean square pressure at the reference distance, with 'classic' and 'true location' no other value of the map is larger. This holds for the conventional, the functional, the eigenvalue and the Capon beamformer, and the orthogonal beamformer puts the whole mean power of the microphones into one point, the first maximum of the map.", "quantifier": "Every array, grid, frequency, speed of sound, reference, strength, exponent, and noise power (Capon).", "why_tests_cant": "A test evaluates a few geometries with a tolerance; the place of the maximum and the level depend on all positions.", "anchors": ["acoular/fbeamform.py: BeamformerBase._calc, BeamformerFunctional._calc, BeamformerCapon._calc, BeamformerEig._calc, BeamformerOrth._calc, SteeringVector", "acoular/fastFuncs.py: beamformerFreq"]}
{"id": "C142", "title": "Beamformer results belong to the present settings", "statement": "After every history of changes of settings, requests, changes of the caching mode and restarts, with several beamformer objects that share a cache file, a line of a beamformer result is the one that belongs to the settings the object has at the time of the request; nothing stored in the cache file by earlier requests makes a later one wrong, and no object makes the requests of another one fail.", "quantifier": "Every number of beamformers, every history of settings, flags, modes, requests, kept results and ends of processes, both file libraries.", "why_tests_cant": "The errors depend on the order of reading bf.result, changing settings and indexing, and show up in a later process; tests use one order.", "anchors": ["acoular/fbeamform.py: LazyBfResult.__getitem__, BeamformerBase._get_result, BeamformerBase._get_filecache, BeamformerBase._calc", "acoular/h5files.py: remove_data"]}
{"id": "C143", "title": "Window functions and the level of tones", "statement": "The level of a tone with the frequency of a line is the same whatever window function is chosen: the amplitude spectrum shows its amplitude and phase, the cross spectral matrix and the maps computed from it its mean square.", "quantifier": "Every window function, block size, overlap, amplitude, phase, window position, line other than the first and the last, number of microphones, source position and formulation.", "why_tests_cant": "Tests compare levels for one window with stored values; the dependence on window, line and block size is a formula in all of them.", "anchors": ["acoular/spectra.py: BaseSpectra.window, PowerSpectra._calc_csm", "acoular/fprocess.py: RFFT.result, RFFT._scale", "acoular/fbeamform.py: BeamformerBase._calc"]}
{"id": "C144", "title": "DAMAS+ returns the sources of exact data", "statement": "For the exact cross spectral matrix of incoherent monopoles at grid points, DAMAS+ with the methods NNLS and LP returns their powers whenever the matrix determines them; in general LP leaves as little of the map unexplained as possible without explaining too much anywhere.", "quantifier": "Every array, grid, set of powers and unit multiplier.", "why_tests_cant": "Tests use a symmetric example, in which row and column sums of the point spread functions are equal.", "anchors": ["acoular/fbeamform.py: BeamformerDamasPlus._calc"]}
{"id": "C145", "title": "Every grid point has a travel time in a general flow", "statement": "GeneralFlowEnvironment returns a finite distance for every point of the region of interest: rays are traced until they enclose it. Distances are interpolated between points of the rays: on a ray they are the distances along the ray, they are never outside of the range of traced distances, and in a uniform subsonic flow (or a fluid at rest) they are never below the true distance and exceed it by no more than the size of the cell between the rays allows.", "quantifier": "Every region of interest, microphone position, number of rays, solid angle and result of the integration of the rays.", "why_tests_cant": "Tests compare a few grids in front of an array with stored values; which points are enclosed depends on the geometry.", "anchors": ["acoular/environments.py: GeneralFlowEnvironment.get_interpolator, GeneralFlowEnvironment._r"]}
{"id": "C146", "title": "Interpolation uses the present geometry", "statement": "A spatial interpolator computes every sample with the microphones, virtual microphones, array dimension, transformation and method it has at that time, whatever was set and interpolated before; virtual microphones that were not set are the real ones.", "quantifier": "Every history of assignments, interpolated samples and readings of the number of channels, every geometry and interpolation method.", "why_tests_cant": "Tests build a new object for each case; the errors depend on the order of assignments and results.", "anchors": ["acoular/tprocess.py: SpatialInterpolator._get_virtNewCoord, SpatialInterpolator._get_mics_virtual, SpatialInterpolator._result_core_func"]}
{"id": "C147", "title": "The chosen interpolation method is carried out", "statement": "For every array dimension and interpolation method that can be set, a spatial interpolator computes its samples with this method or raises an error.", "quantifier": "Every dimension, method, geometry, sample and angle.", "why_tests_cant": "There are 35 combinations, and a wrong result looks like silence.", "anchors": ["acoular/tprocess.py: SpatialInterpolator._result_core_func"]}
{"id": "C148", "title": "Linear interpolation for plane arrays", "statement": "With the linear method a virtual microphone of a rotating plane array gets the sample of a microphone when it is at its place, and otherwise, at every angle, a value between the least and the greatest sample.", "quantifier": "Every plane array, virtual microphone, transformation, angle of rotation and sample, every Delaunay triangulation.", "why_tests_cant": "Whether a point is covered by the mesh depends on the triangulation near the seam of the angle; tests look at a few arrays.", "anchors": ["acoular/tprocess.py: SpatialInterpolator._virtNewCoord_func, SpatialInterpolator._result_core_func"]}
{"id": "C149", "title": "The sound of a fixed dipole", "statement": "PointSourceDipole simulates the field of a dipole: at distance r and angle theta to its direction, the output (scaled with r) is cos(theta) times the sum of the arriving signal divided by r and its time derivative divided by c, up to errors that vanish with the sampling interval; nothing is received orthogonal to the direction, and the opposite direction gives the negative sound.", "quantifier": "every signal, sampling frequency, upsampling factor, direction of the recommended length and microphone position", "why_tests_cant": "The difference of two nearly equal delayed signals depends on how the delays round; a test at a few microphones sees either the missing or the exaggerated part, or accepts both within its tolerance.", "anchors": ["acoular/sources.py: PointSourceDipole.result, PointSourceDipole.direction"]}
{"id": "C150", "title": "Changing the caching mode during a session", "statement": "The caching mode may be changed at any time. Whatever the history of modes, requests of results by several objects and deletions of objects is, every request returns the value that belongs to it; in the modes 'readonly' and 'none', and in the mode 'individual' for objects with cached=False, nothing is written; in the modes 'all' and 'overwrite', and in the mode 'individual' for objects with cached=True, a returned result is in the cache file.", "quantifier": "every history of changes of the mode, requests, deletions of objects and restarts, any number of objects that share a cache file", "why_tests_cant": "The outcome depends on the mode in which the file was opened first, by whichever object, earlier in the session; a test per mode starts from a fresh state.", "anchors": ["acoular/h5cache.py: HDF5Cache.get_cache_file, HDF5Cache.close_unreferenced_cachefiles", "acoular/spectra.py: PowerSpectra._get_filecache", "acoular/fbeamform.py: BeamformerBase._get_filecache, PointSpreadFunction._get_filecache", "acoular/configuration.py: Config.global_caching"]}
{"id": "C151", "title": "Least norm solution of the inverse method with reweighted least squares", "statement": "With method 'InverseIRLS' the generalised inverse beamformer finds for every processed eigenmode amplitudes at the grid points that explain the eigenmode exactly and that have, among all amplitudes that do, the least sum of powers pnorm of the magnitudes; more iterations come nearer to it, and there is a result for any number of channels and points.", "quantifier": "all transfer matrices, eigenmodes, exponents pnorm and numbers of iterations", "why_tests_cant": "needs a statement about all competing amplitudes and about the sequence of all iterations; a test sees a map that looks sparse or not", "anchors": ["acoular/fbeamform.py BeamformerGIB._calc, pnorm, n_iter"]}
{"id": "C152", "title": "Chains of processing blocks do not disturb each other through shared arrays", "statement": "For every tree of connected objects the samples delivered are those the tree stands for, and the recorded data are unchanged afterwards, although blocks are arrays that objects hand on without copying, keep, or overwrite in place; a second run, or another tree on the same data, is not influenced by the first; a consumer may overwrite the blocks it receives, or keep them and look at them after the run.", "quantifier": "every tree of objects of any depth with any settings and data, every block size, every way in which a consumer overwrites received blocks", "why_tests_cant": "Whether two objects share an array depends on the combination of objects, the block size and the selection of samples; tests look at the first run of single objects.", "anchors": ["acoular/tprocess.py: MaskedTimeOut.result, Mixer.result, TimeReverse.result, TimeCumAverage.result, FiltFiltOctave.result, WriteH5.result", "acoular/process.py: Average.result, Cache.result", "acoular/sources.py: TimeSamples.result, PointSource.result, MovingPointSource.result, UncorrelatedNoiseSource.result, SourceMixer.result"]}
{"id": "C153", "title": "Consumers of a sample splitter do not disturb each other", "statement": "Each object registered with a SampleSplitter gets the blocks of the signal its source stands for, one after the other, whatever the order in which the objects ask (buffers long enough), whatever chain the source is, and whatever the other objects do with the blocks they get.", "quantifier": "every chain as source, every number of registered objects, every order of requests, every block size", "why_tests_cant": "All objects get the same arrays; whether one of them finds the right values depends on the source, on how far the others are ahead and on what they do with the blocks.", "anchors": ["acoular/process.py: SampleSplitter.result, SampleSplitter._fill_block_buffers", "acoular/tprocess.py: MaskedTimeOut.result, Mixer.result", "acoular/sources.py: PointSource.result"]}
{"id": "C154", "title": "Filtered noise obeys its recursion and is not delayed", "statement": "FiltWNoiseGenerator delivers the solution of the recursion given by its autoregressive and moving average coefficients for the white noise of the same seed, with the group delay of the filter compensated (as documented): with symmetric moving average coefficients every sample is the symmetric average around the sample of the same number.", "quantifier": "every list of coefficients, rms, seed and number of samples", "why_tests_cant": "Tests compare single settings with stored results; whether the delay is compensated depends on length and symmetry of the coefficients.", "anchors": ["acoular/signals.py: FiltWNoiseGenerator.signal, FiltWNoiseGenerator.handle_empty_coefficients"]}
{"id": "C155", "title": "Superposition: a linear network applied to a mixture is the mixture of the processed sources", "statement": "For every network of linear processing blocks (calibration, channel mixing, selection of samples and channels, averages, filters, zero phase filters, reversal, caches, files, mixers of such branches) that has a defined output, connecting it to a Mixer of two sources delivers, block by block, what a Mixer of two copies of the network delivers; a common factor may be applied before or behind the network; factors and weighted sums of channels may be exchanged with averages, filters, reversal, caches and files; two filters in a row may be exchanged and replaced by one filter with the sections of both; filters with the same transfer function deliver the same.", "quantifier": "every network, all sources of equal length, factors, weights, filters and block sizes", "why_tests_cant": "The statement ranges over all networks and relates two different object graphs; tests compare single objects with single inputs.", "anchors": ["acoular/tprocess.py: Mixer.result, Filter.result, ChannelMixer.result, MaskedTimeOut.result, TimeReverse.result, TimeCumAverage.result, FiltFiltOctave.result", "acoular/process.py: Average.result, Cache.result", "acoular/calib.py: Calib.result"]}
{"id": "C156", "title": "BeamformerMusic peaks at the sources", "statement": "Let the cross spectral matrix be that of k uncorrelated sources (fewer than microphones, independent fields) plus noise of equal power in all channels. With n = k, the map of BeamformerMusic at a grid point is 4e-10 times the smallest of the squared distances of the steering vectors from the space of the fields of the sources, divided by the distance at this point. So, with 'true level' and 'true location', the noise subspace does not respond at any grid point that carries a source (also if n is larger than k), and, with n = k, at no other points but those whose steering vector is a combination of the source fields. With one source and n = 1, 'classic' and 'true location' respond least at the source. This needs noise: the powers of the noise are factors of the response.", "quantifier": "all arrays, grids, frequencies, source positions and strengths, noise powers, numbers of sources, and all results of an eigendecomposition", "why_tests_cant": "Tests compare the map of one recording with a stored result; whether the peaks are at the sources is a statement on all arrays and all mixtures of sources, and independent of which eigenvectors the library picks in the degenerate noise subspace.", "anchors": ["acoular/fbeamform.py: BeamformerMusic._calc, BeamformerEig._get_na", "acoular/fastFuncs.py: beamformerFreq"]}
{"id": "C157", "title": "Only the shape of the arrangement matters, not the coordinate system", "statement": "If grid, microphones and reference position are moved, turned or mirrored together, every frequency domain beamformer with a grid returns the same result; the same holds if all lengths are multiplied by L and the wave length, too. With 'classic' and 'true location' the reference has no influence on the maps of conventional, functional, Capon, eigenvalue, MUSIC and orthogonal beamforming; with 'inverse' and 'true level' the conventional map is inversely proportional to the square of the distance to the reference.", "quantifier": "all arrays, grids, matrices, frequencies, motions, scales, formulations and parameters of the beamformers", "why_tests_cant": "A relation between two runs for all motions of all arrangements; tests use one fixed arrangement, mostly with the array in the plane z = 0 around the origin, where the default reference hides a wrong one.", "anchors": ["acoular/fbeamform.py: SteeringVector._get_r0, SteeringVector._get_rm, BeamformerBase._calc and _calc of the derived classes, BeamformerGridlessOrth._calc", "acoular/fastFuncs.py: beamformerFreq, calcPointSpreadFunction, calcTransfer", "acoular/environments.py: Environment._r"]}
{"id": "C158", "title": "Louder signals give proportionally louder maps", "statement": "If all signals are multiplied by alpha, the cross spectral matrix is multiplied by a = alpha^2, and the maps of conventional beamforming, Capon, functional beamforming, the beamformer for one component, orthogonal beamforming, DAMAS, CLEAN and CLEAN-SC are multiplied by a (levels rise by 10 log10 a dB above the lower limit of L_p); the map of MUSIC does not change. DAMAS+ and CMF hand a times the data to the solver; non negative least squares and linear programming then give a times the result, methods with a penalty only if alpha (the penalty) is multiplied by a, too.", "quantifier": "all factors a > 0, matrices, arrays, grids, frequencies, formulations and parameters; all routines that diagonalise Hermitian matrices", "why_tests_cant": "A relation between two runs for all factors and data. An absolute threshold in a stop condition or an offset shows only for data of the wrong magnitude, and tests use one magnitude.", "anchors": ["acoular/fbeamform.py: _calc of BeamformerBase, BeamformerFunctional, BeamformerCapon, BeamformerEig, BeamformerMusic, BeamformerDamas, BeamformerDamasPlus, BeamformerOrth, BeamformerCleansc, BeamformerClean, BeamformerCMF; L_p", "acoular/fastFuncs.py: damasSolverGaussSeidel", "acoular/spectra.py: PowerSpectra.calc_csm"]}
{"id": "C159", "title": "The order of channels and of grid points does not matter", "statement": "If microphones and channels are renumbered together, conventional, functional, Capon, eigenvalue, MUSIC, orthogonal (with and without grid), DAMAS, DAMAS+, CLEAN and CLEAN-SC beamformers return the same result. If the grid points are listed in another order, the maps have the same values in that order.", "quantifier": "all permutations of the channels and of the grid points, all arrays, grids, Hermitian matrices, frequencies, formulations and parameters; all routines that diagonalise Hermitian matrices", "why_tests_cant": "A relation between two runs for all permutations; the kernels use only the upper triangle of the matrix, and loops work in place in the order of the grid points, which fixed test arrays do not reveal.", "anchors": ["acoular/fbeamform.py: _calc of BeamformerBase, BeamformerFunctional, BeamformerCapon, BeamformerEig, BeamformerMusic, BeamformerDamas, BeamformerDamasPlus, BeamformerOrth, BeamformerCleansc, BeamformerClean, BeamformerGridlessOrth", "acoular/fastFuncs.py: beamformerFreq, calcPointSpreadFunction, damasSolverGaussSeidel"]}
{"id": "C160", "title": "CLEAN-T: what is taken away, what is found, and when it ends", "statement": "In every iteration CLEAN-T (BeamformerCleant, BeamformerCleantSq and their variants for moving grids) takes away from the microphone signals the signal of the strongest grid point as it arrives there. If a block contains the signal of a single source at a grid point, this signal is found there up to (1 - damp)^n_iter, and nothing elsewhere. Louder recordings give louder results at the same points. With r_diag the powers do not contain the contributions of the single microphones and are not negative. The result does not depend on the block size, spatial weights are taken into account, and the generator ends normally whenever that of BeamformerTime does.", "quantifier": "all signals, geometries, delays, loop gains, numbers of iterations, block sizes, lengths of the recording", "why_tests_cant": "Iteration for all signals and geometries; a fixed test compares with stored results only, block edges and lengths are combinatorial.", "anchors": ["acoular/tbeamform.py: BeamformerTime.result, BeamformerTimeTraj.result (Cleant branches), BeamformerCleant, BeamformerCleantSq, BeamformerCleantTraj, BeamformerCleantSqTraj"]}
{"id": "C161", "title": "Convective amplification of the moving grid", "statement": "With conv_amp, BeamformerTimeTraj compensates the convective amplification of the moving focus points: the distance from which the amplitudes are computed is multiplied by (1 - M)^2, where M is the Mach number of the motion of the focus point towards the microphone; so a monopole that moves along with the grid is shown with its level, a simulated moving source (MovingPointSource with conv_amp) as well, and without motion nothing changes.", "quantifier": "every velocity, focus point, microphone position, formulation and signal", "why_tests_cant": "Depends on the relative position of all microphones to the path; with arrays that the source passes, errors of opposite sign compensate in a map.", "anchors": ["acoular/tbeamform.py: BeamformerTimeTraj._get_macostheta, result"]}
{"id": "C162", "title": "A moving grid: places, reference, and the grid at rest", "statement": "BeamformerTimeTraj evaluates sample n for the grid at the place of the trajectory at time n / sampling frequency, with the reference of its steering vector (a distance, or the distance to a position). If the trajectory rests, it delivers the samples that BeamformerTime delivers for the grid at this place.", "quantifier": "every grid, microphone arrangement, formulation, reference, trajectory, signal and block size", "why_tests_cant": "All kinds of references, motions and block sizes; a wrong reference changes only the level.", "anchors": ["acoular/tbeamform.py: BeamformerTimeTraj.result, get_r0, BeamformerTime.result", "acoular/fbeamform.py: SteeringVector._get_r0"]}
{"id": "C163", "title": "What a chain announces is what it delivers: columns, frequency axis, block size", "statement": "For every chain of time blocks, transforms, power spectra and blocks that work in both domains (Average, Cache, SampleSplitter, SamplesBuffer, Calib), the blocks of result have num_channels columns in the time domain and num_channels * num_freqs columns in the frequency domain; freqs, num_freqs and block_size are those of the transform whose spectra are delivered, so that averaged, cached or calibrated spectra can be plotted over freqs, turned into power spectra and transformed back; and Calib accepts exactly as many valid factors as its source has columns.", "quantifier": "every chain of objects that the traits accept, with any numbers of channels, block sizes and factors", "why_tests_cant": "All combinations of blocks; the attributes are inherited and delegated along chains of any length.", "anchors": ["acoular/base.py: InOut, SpectraOut, TimeOut", "acoular/fprocess.py: RFFT, IRFFT._validate, AutoPowerSpectra._get_scaling_value, CrossPowerSpectra.result", "acoular/process.py: Average, Cache, SamplesBuffer", "acoular/calib.py: Calib.__validate_data"]}
{"id": "C164", "title": "Calibration before and after the transform", "statement": "Calibrating the signals with one factor per channel and transforming them with RFFT delivers the same blocks as transforming first and calibrating the spectra with these factors for every frequency; auto power spectra are multiplied by the squared factors, cross power spectra and the entries of the cross spectral matrix by the products of the factors of the two channels.", "quantifier": "every signal, number of channels, calibration factors, block size, overlap, window function and scaling", "why_tests_cant": "Equality of two processing orders for all signals and factors; equal factors in a test do not show a wrong order of the columns.", "anchors": ["acoular/calib.py: Calib.result", "acoular/fprocess.py: RFFT.result, AutoPowerSpectra.result, CrossPowerSpectra.result", "acoular/spectra.py: PowerSpectra.calc_csm"]}
{"id": "C165", "title": "Excluded channels are as good as never recorded", "statement": "If the same channels are listed in invalid_channels of MaskedTimeSamples and of MicGeom, every frequency domain beamformer returns what it returns for a recording and a geometry that contain the remaining channels only; if the channels left in the data are not the microphones left in the geometry, the beamformers refuse to work.", "quantifier": "all data, numbers of channels, lists of excluded channels (also negative, repeated and too large numbers), start and stop, block sizes, overlaps, windows, geometries, classes of frequency domain beamformers and their settings; time domain beamformers for the second part", "why_tests_cant": "The tests use one geometry with all channels valid or one list set on both objects; the agreement must hold for every list, and the missing check shows only when two lists of the same length differ, which gives a plausible map.", "anchors": ["acoular/fbeamform.py:412-416", "acoular/fbeamform.py:418-450", "acoular/sources.py:612-625", "acoular/sources.py:664-746", "acoular/microphones.py:163-172", "acoular/spectra.py:376-400", "acoular/tbeamform.py:126-188", "acoular/tfastfuncs.py:25-58"]}
{"id": "C166", "title": "What was read is what is in the file named", "statement": "The positions of MicGeom and ImportGrid, the names of subgrids and the factors of Calib are those of the XML file named in the attribute file, element by element; a file that is missing, incomplete or unreadable is refused, so that an object never names one file and holds the content of another; microphones with the same name in a geometry and a calibration file belong together.", "quantifier": "all files, all orders and texts of attributes, all histories of assignments to file, direct assignments to the data and changes of the files on disk", "why_tests_cant": "Tests read a few well-formed files shipped with the package once; the stale content after a failed or repeated import shows only in a history, and it raises nothing.", "anchors": ["acoular/microphones.py:131", "acoular/microphones.py:189-224", "acoular/grids.py:773", "acoular/grids.py:880-928", "acoular/calib.py:81", "acoular/calib.py:118-128"]}
{"id": "C167", "title": "The components asked for last are the ones considered", "statement": "BeamformerOrth and BeamformerGridlessOrth consider exactly the components asked for last, through n (the n largest eigenvalues) or through eva_list (the eigenvalues named, counted from either end), each once; a component that does not exist is refused.", "quantifier": "all histories of assignments to n and eva_list, all values of both (also negative, zero, repeated and too large), all numbers of channels, eigenvalues, eigenvectors and geometries", "why_tests_cant": "Tests set n or eva_list once on a new object; the order of the two assignments and assigning a value again matter only in a history.", "anchors": ["acoular/fbeamform.py:1373-1381", "acoular/fbeamform.py:1415-1454", "acoular/fbeamform.py:2345-2353", "acoular/fbeamform.py:2384-2387", "acoular/fbeamform.py:2414-2415"]}
{"id": "C168", "title": "Travel in a uniform flow: reciprocity, no detours, always a number", "statement": "The travel distance in UniformFlowEnvironment depends on the flow velocity and the relative position only; exchanging source and receiver and reversing the flow leaves it unchanged; the difference of the two directions is given by the component of the flow along the line; no way by a third point is shorter, points on the line divide it; and it is a number for all points and all settings that are accepted (zero for coinciding points).", "quantifier": "all Mach numbers, directions of any length, and points", "why_tests_cant": "Relations between distances of different pairs of points and of different flows, for all of them; tests compare one table with stored values.", "anchors": ["acoular/environments.py:245-314"]}
{"id": "C169", "title": "What the error metrics say about a map", "statement": "The overall, specific and inverse level errors of MetricEvaluator compare the levels they are named for; they are zero for a perfect reconstruction; a map too loud by g dB raises the first two by g and leaves the third; overall and inverse error add up to the error of all sectors against all targets; the inverse error is never positive, because the sectors cannot contain more than the map; data that do not fit the grids are refused.", "quantifier": "all numbers of frequencies, grid points and targets, all maps, targets and sectors", "why_tests_cant": "Relations between the three values for all maps and sectors; tests compare stored numbers for one set of sources.", "anchors": ["acoular/tools/metrics.py:72-81", "acoular/tools/metrics.py:108-165"]}
{"id": "C170", "title": "Different data, different files", "statement": "Everything computed from one recording is kept in one cache file named after it; data of different origin are kept in different cache files; WriteWAV without a given name writes different signals and different channels to different files.", "quantifier": "all chains of objects of any length, recordings and simulated sources, all lists of channels", "why_tests_cant": "Whether two names collide is a statement about pairs of chains; tests work with one chain in an empty directory.", "anchors": ["acoular/tools/utils.py:16-57", "acoular/process.py:262-263", "acoular/spectra.py:353-354", "acoular/tprocess.py:170-179", "acoular/tprocess.py:1799-1824", "acoular/h5cache.py:87"]}
