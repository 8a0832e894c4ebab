# Formal model of acoular: design

The code under study is the checkout in `/repo` (python package `acoular`).  It is read as text only.  The
model and all proofs are in Lean 4 under `lean/Verif/`.

## 1. Layout

* `Verif/Spec/*.lean` – small specifications written without reference to the model (what "cut into blocks",
  "running mean", "quadratic form", ... mean).
* `Verif/Model/*.lean` – the model.  One Lean definition per modelled Python function (or loop), each with a
  comment giving file and lines and the simplifications.
* `Verif/Lemmas/*.lean` – helper lemmas and invariants.
* `Verif/Props/*.lean` – the property theorems named `Cnn_...`.  Next to each theorem an `example`
  instantiates the hypotheses with a concrete non-trivial case.

Theorem name suffixes: `_partial` – part of the property is proved, the docstring says what is missing;
`_violated` – the model (hence the code, up to the modelling assumptions below) does **not** have the property
as stated: the theorem is the negation, with a concrete witness.

## 2. Trusted base

* Lean 4.33.0's kernel and, where imported, Mathlib definitions.
* Axioms: at most `propext`, `Classical.choice`, `Quot.sound`.  No axioms of our own, no `sorry`, no
  `native_decide`, no `bv_decide` (checked with `#print axioms`).
* The correspondence between the Python text and the model: checked by reading, not by execution.

### 2.1 Modelling assumptions (apply everywhere)

* **Numbers.** Floating point numbers are idealised to exact numbers (rationals, reals, complex numbers, or an
  arbitrary field).  Round-off, overflow, NaN and inf are not modelled.
* **Arrays.** A block of shape `(ns, nc)` is a list of rows; a row is an opaque value when the code does not look
  into it, otherwise a function/list over channels.  dtype conversions are not modelled.
* **Aliasing.** Blocks are values (copied when received), except in the modules that are about aliasing
  (Mixer/SourceMixer, MetricEvaluator, BeamformerTime weights): there a heap is modelled.
* **Generators.** A Python generator is modelled by the list of blocks it yields, or – when abandonment, side
  effects or interleaving matter – by a step function / trace with one entry per `yield`.
* **Traits.** A `Property(depends_on=...)`/`property_depends_on` with `cached_property` is a cache invalidated
  exactly when one of the listed dependencies changes value.
* **Libraries.** numpy slicing/broadcasting, scipy `sosfilt`, HDF5 append/attribute operations, `md5` (by its
  preimage) are modelled by their documented behaviour.

## 3. Properties

* **C01 TimeSamples streaming covers the data exactly once.** Model `TimeSamples.result` as the `while i < num_samples` loop on a row list, with the calibration branch.  Proof: induction on the remaining length against `Spec.IsBlocking` (concatenation + block-size contract).
* **C02 MaskedTimeSamples / MaskedTimeOut deliver exactly the selected samples and channels.** Model the whole of `MaskedTimeOut.result` (slice.indices, offset, buffer, first/last/middle branches) as a fold over source blocks.  Proof: loop invariant (buffer = selected rows not yet delivered).
* **C03 Block-wise averaging is independent of the block size.** Model the loop over source blocks of size num*nav with `reshape/mean`.  Proof: group-means of an append at a multiple of nav.
* **C04 A cached source is transparent for every history of runs.** State machine: cache node = none | (rows, complete?); a run = mode, num, number of `next` calls; each run modelled as trace of (yielded block, file state) following the four generators.  Proof: invariant over histories.
* **C05 readonly and none caching never touch the cache file.** Same machine as C04; frame property and invariant.
* **C06 SampleSplitter delivers every block to every registered object or reports the loss.** State machine with per-object deques (bounded), global buffer_size, overflow flag, source list; step = one `next` of one consumer (atomic).  Invariants over all schedules; the property fails for per-object buffer sizes different from the global one and under fine-grained interleaving (negations), proved for uniform sizes. No error without cause while no object is a full buffer behind (`C06_splitter_no_spurious_partial`); at the end of the source the level is inspected once more although nothing is added, so blocks in a full buffer become inaccessible (`C06_splitter_end_violated`).
* **C07 SamplesBuffer re-blocks without loss, gaps or repetition.** Array/index model of the buffer, `fill_buffer` and `read_from_buffer`; abstraction to a queue; refinement proof.
* **C08 TimeReverse delivers the exact time reversal.** Model with the mutable `temp` array as list surgery; proof by induction over reversed block list.
* **C09 Cumulative average equals the mean of all samples so far.** Accumulator recurrence over a field of characteristic zero; induction over blocks.
* **C10 IIR filtering is independent of the block size.** Direct form II transposed cascade as a state machine, block = fold; proof: fold over append.
* **C11 Filter banks process every source length.** Shape model of the assignment `res[:, ...] = filtered`; exception as value.  Violated for shorter last blocks; positive theorem for full blocks.
* **C12 WriteH5 stores exactly the requested number of samples while echoing the source.** Loop model with stotal/scount/anz and an external flag schedule.  Induction.
* **C13 Mixing adds the sources and leaves them unchanged.** Value semantics model for the sum/truncation; heap model for the aliasing.  Positive theorem for fresh blocks; negation for views.
* **C14 Overlapped FFT windows cover the signal as the overlap setting says.** Model of the double-length buffer and position (in units of bs/ov); proof by invariant; RFFT window loop as well.
* **C15 Cross spectral matrix is Hermitian and positive semidefinite.** Model `calcCSM` accumulation, mirroring and scaling over complex matrices; proof with finite sums.
* **C16 Averaging normalisation counts the windows actually used.** num_blocks formula versus number of windows from C14: equality iff divisibility; violated otherwise.
* **C17 Frequency index range selects exactly the half-open frequency interval.** searchsorted as the count of smaller elements of a sorted list; indices as list slices.
* **C18 Imported cross spectral matrices never yield stale eigenvalues.** Machine (csm, csmsum, cached eva with key) over set/get events; negation plus positive theorem for histories with pairwise different consecutive checksums.
* **C19 Digests distinguish different parameter settings.** Preimage = concatenation of strings; negations for concrete classes, for the abbreviated printing of large arrays (`Model/ArrayStr.lean`; the behaviour of `str(ndarray)` is taken from the numpy documentation) and for calibration data; positive theorem for one dependency / fixed width parts.
* **C20 Cached spectra equal computed spectra for every crash point.** State machine of the cache node (absent | zeros | data) and crash points.
* **C21 Beamformer results are computed once per frequency and never mixed up.** Model of `LazyBfResult.__getitem__`, `_calc`, flags; invariant `flag i -> ac i = value i`.  Violations: key -1, accumulating `_calc` of BeamformerOrth after a crash.
* **C22 Band synthesis is additive and covers each line once.** searchsorted + sum over slices.
* **C23 Conventional beamformer output is the quadratic form of the CSM.** Kernel as finite sums over microphones; quadratic form with Mathlib complex matrices.
* **C24 Eigenvalue-based and CSM-based beamforming agree.** As C23.
* **C25 Predefined and user supplied steering vectors give the same map.** As C23, real distances.
* **C26 Point spread function is calibrated at the source.** As C23 plus Cauchy–Schwarz.
* **C27 DAMAS iterations keep source powers non-negative and solve the system at fixed points.** List/Fin model of the sweep; invariant and fixed point characterisation over ordered fields.
* **C28 CLEAN keeps the residual identity and terminates.** Loop with fuel n_iter; residual identity invariant.
* **C29 CLEAN-SC loop respects its limits.** Loop skeleton with abstract update; bound on the number of iterations and stop rule; Hermitian preservation for the explicit update.
* **C30 Eigenvalue selection stays inside the valid range.** Integer decision function; outright.
* **C31 Rectangular grids index the nearest point.** Rationals; rounding modelled exactly (half-even `round`, `int`).
* **C32 Sub-grid selection returns exactly the points of the region.** Decidable predicates over ordered fields. Point-in-polygon test: nearest side or vertex, for convex polygons over any ordered field, for simple polygons over the reals (Lemmas/Winding, Jordan, JordanInside, JordanArea: the winding number is constant along lines that miss the boundary and grows by one from the right to the left of a side; it has one value left of all sides of a simple polygon and one, smaller by one, right of them; the signed area is its integral).
* **C33 Integration over sectors is additive.** Finite sums over index lists.
* **C34 Uniform flow travel distances solve the convected wave equation.** Reals, square roots.
* **C35 Flow field Jacobians are the derivatives of the velocity.** Mathlib derivatives.
* **C36 Cylindrical coordinate conversion round-trips.** Reals: polar form.
* **C37 Ray start directions are orthogonally rotated.** Reals: Householder reflection.
* **C38 Microphone geometry excludes exactly the invalid channels and survives export and import.** Lists and filter; text form of numbers abstracted by a round-tripping print/parse pair.
* **C39 Deprecated trait names behave as the new ones.** Object = finite map; operations on names; induction over operation sequences.
* **C40 The cache file registry stays usable.** Registry machine.
* **C41 Trajectory sampling honours the requested interval.** arange over rationals; truth-value defaulting modelled exactly.
* **C42 Simulated point sources deliver the announced number of samples.** Loop skeletons with block counters.
* **C43 Repeating a simulation gives the same result.** State = source strength list and signal rms; run returns output and new state.
* **C44 Time-domain beamforming produces the announced number of samples.** Arithmetic of the buffer reads (uses C07's model).
* **C45 Delay-and-sum stays inside its data and is linear.** Kernel over list data with out-of-range as none.
* **C46 Gridless orthogonal beamforming keeps its slots apart.** Model/Gridless: the nested loops as a sequence of stores into the result arrays; frame theorem by induction over components and frequencies. False of the code for component lists longer than n and after a change of the number of frequencies.
* **C47 Travel times follow the flow environment.** Machine with interpolator dictionary.
* **C48 Point spread function columns requested are the ones computed.** Machine with flags vector; int8 invert modelled exactly.
* **C49 Convolution delivers the full linear convolution.** Time-domain equivalent of the FFT blocks (cyclic convolution of length 2*num); negation for L > num and for L+M-1 multiple of num; positive theorem otherwise.
* **C50 Repeated evaluation of error metrics gives the same values.** Heap-free model returning the mutated map.
* **C51 Adaptive integration sectors of distinct targets do not overlap.** Metric space triangle inequality.
* **C52 Signal generators deliver the requested number of samples with exact looping.** Loop model.
* **C53 Collecting a stream returns its beginning.** Loop model.
* **C54 Trigger peak thinning terminates and leaves peaks far enough apart.** Loop with list deletion; termination by length.
* **C55 WAV export never clips.** Rationals, truncation toward zero.
* **C56 Spectral channel layout.** Index lists.
* **C57 A fixed number of samples recorded from a sound card.** Loop model with the stream as a function from read index to block.
* **C58 Row-wise processing blocks do not depend on the block size.** Maps over blocks; refinement to the row-wise function.
* **C59 A delivered block keeps its content.** Heap model (arrays, views, actions); a consumer that looks at once and one that looks late.  Violated by TimeReverse and FilterBank (same array yielded every time) and by MaskedTimeOut (`C152_keep_violated`), RFFT (`C59_rfft_violated`: the last spectrum over and over) and SamplesBuffer (`C59_buffer_violated`); used at once, their blocks are those of the value models (`C59_rfft_now`, `C59_buffer_now`); holds for Mixer.
* **C60 The frequency selection set last is the one used.** State with the shadow traits and the two property caches (cleared exactly when a listed dependency changes value).  Violated by mixed histories (`_index_set_last` is not a dependency); proved for index-only histories and after a change of both limits.
* **C61 Power spectral density times line width is power.** Closed formula over the reals.  Violated: the factor is block_size*sample_freq, so density times width is sample_freq^2 times power.
* **C62 Functional beamforming sharpens the map and never raises it.** Real powers of the eigenvalues; weights |v^H h|^2/|h|^2 add up to one for a unitary basis; power mean inequality from Mathlib.
* **C63 Capon beamforming never exceeds conventional beamforming.** Inverse of a positive definite matrix; Cauchy-Schwarz.  'inverse' formulation: counterexample.
* **C64 CLEAN-SC results of different lines are independent.** The shared result buffer with NaN as a value; `result *= 0.0` does not clear NaN, so a silent line spoils all later lines of the request (violated); independent if no NaN occurs.
* **C65 The MUSIC map is normalised.** argmax/argmin over finite maps; outright.
* **C66 Orthogonal beamforming conserves the power of the considered components.** List recursion over the components with Python indices; sums over the grid.
* **C67 RectGrid.pos reflects the current settings.** Object with cached pos and dependency list; invariant: cache valid unless z changed since it was filled. False for z (not among the listed dependencies): witness history.
* **C68 Integration of a beamformer result over a frequency range.** State machine with `_f`/`_numfreq` set by a read of the result; integrate over lines in range. False on the first call of a fresh object (empty answer). Model/IntegrateRange.lean: `frange` with two entries (`searchsorted` in the stored frequencies, slices of the present ones) and bands (`synthetic` for each centre); `C68_frange_partial` gives fmin <= f < fmax, `C68_upper_limit_violated` shows that the line at fmax is lost, `C68_bands` has no such defects.
* **C69 Centre and aperture of an array.** Closed formulas over the reals; maximum of the list of distances. With all microphones in the origin both are None.
* **C70 Simulating a point source reads only the signal.** Arrays are lists, a read outside is `none`; the rows are those of C42, all indices are bounded by the start times. Violated for late acquisition.
* **C71 Seeds of uncorrelated noise.** Decision logic; outright.
* **C72 Noise and sine signals.** Model/Signals: the formulas over an arbitrary field, random numbers as functions, numpy's shape check in pink noise as an error; proof by induction over the octaves that the shapes always fit.
* **C73 Time-domain beamformer recovers the source signal.** Model/TimeBeam: the four amplitude formulas over an ordered field; algebra.
* **C74 Spatial weights are applied once.** Model/TimeBeam: the blocks handed out by SamplesBuffer are views, modelled by a buffer machine whose consumer changes rows in place. False of the code: general counterexample theorem for the first sample of the second block; positive theorem for idempotent weights.
* **C75 Beamforming on a moving grid uses the position at each sample and stays inside the data.** Model/TimeBeamTraj: buffer machine with a result size set before every block, loop with early end; induction over the blocks. Positive theorem for motion slower than sound and a long enough trajectory; violations otherwise.
* **C76 CLEAN-T terminates and lowers the residual power.** Model/TimeBeamTraj: the loop over an abstract update; induction over the iterations.
* **C77 Sector integration over time does not depend on the block size.** Model/TimeBeamTraj: block-wise clipping. False of the code in general (clipping level of the block); positive theorem if no value lies between 0 and the clipping level.
* **C78 Trigger detection finds exactly the samples beyond the threshold.** Model/Trigger: detection block by block with the last value of the previous block; membership characterisation by induction over the blocks. False of the code for rect: edges in the first block are reported one sample early.
* **C79 An interrupted PSF calculation never leaves wrong columns marked as calculated.** Model/Psf: the calculation as a list of actions (set flag, store column); invariant over all prefixes for 'single'; counterexample prefixes for 'full' and 'block', which set the flags first.
* **C80 PSF values of different frequencies are never mixed up in the cache.** Model/Psf: file as a map from node names (frequency rounded to two decimals) to states; invariant for sets of frequencies with distinct names; counterexample otherwise.
* **C81 The gradient used by SODIX is the gradient of what it minimises.** Model/Inverse sodixFunc, sodixDer; Spec.IsGradient (derivative along every direction). Proof: second order expansion of the modelled matrix, derivative of a squared norm, reordering of sums. Needs a Hermitian matrix; counterexample otherwise. (SODIX ignores r_diag, alpha and unit_mult.)
* **C82 Covariance matrix fitting explains the measured matrix and returns the true strengths for exact data.** Model/Inverse cmfA, cmfR: rows kept from the real system; theorems: residual formula, exactness iff, recovery for every minimiser (Spec.IsFit), gradient of the L-BFGS function. The scikit-learn estimators fit an offset (fit_intercept is left at its default), so recovery needs identifiability with an offset; counterexample without.
* **C83 The GIB map superposes all eigenmodes.** Model/Inverse gibLine: loop over modes with the local variable locpoints; sum theorem if all points stay in use; otherwise false of the code: only the points of the last processed mode are filled (support theorem), counterexamples for dropped points, silent first line (UnboundLocalError) and m + n beyond the number of channels (IndexError).
* **C84 The unit multiplier does not change the result of inverse methods.** Model/Inverse SklearnResult, NnlsResult, FistaResult: results as sets of minimisers; scaling of the objective. `C84_unit_lp` (Props/DamasPlus.lean): linear program. False of the code for FISTA and Split Bregman, where the penalty is not scaled.
* **C85 The GIB map does not depend on the phase of the eigenvectors.** Model/Inverse suzukiMode and Model/Irls irlsMode: equivariance of every iteration under a unit factor, by induction over the iterations. False of the code for methods that fit non negative real and imaginary parts.
* **C86 Points of a line grid.** Model/GridMore lineGridPos over the reals; direct computation. False of the code for one point, the default: ZeroDivisionError.
* **C87 A merged grid consists of the points of its grids, each once, and names the grid of every point.** Model/GridMore mergePos: sorting and removal of equal neighbours; membership and strict order by induction. The names are false of the code: they follow the order of the grids, with duplicates.
* **C88 Membership in convex sectors.** Model/GridMore inHull: the triangulation is any one that satisfies what scipy documents (structure Delaunay). False of the code without border: `find_simplex > 0` drops the first triangle instead of the border.
* **C89 The filters of an octave filter bank belong to its current settings.** Model/FilterDesign OctBank: settings and the cache of `sos`, which has no dependencies; histories of changes and reads. False of the code after the first read; positive theorem before it.
* **C90 Band edges of octave filters.** Model/FilterDesign octaveAlpha over the reals; inequality x > sin x. The zero phase variant widens the band after the check: counterexample.
* **C91 Exponential averaging settles with its time constant and stays in range.** On top of C10_time_exp_average (recursion): closed form and bounds by induction over the samples.
* **C92 The moving grid is a rigid motion of the grid.** Model/MovingFrame: cross products and column normalisation over the reals; not-a-number as none. Algebra.
* **C93 The guessed trigger threshold.** Model/Trigger guessThreshold: extremes and mean of block means. False of the code if the last block is not full, and for signals with an offset; positive theorem for full blocks.
* **C94 Directivity of spherical harmonic sources.** Model/SphSource: the discrete Fourier transform of Mathlib; linearity. False of the code for complex directivities: the imaginary part is dropped.
* **C95 The inverse transform of the transform is the signal.** Model/Irfft: rfft as half of the discrete Fourier transform, conjugate symmetry; on top of C14 (windows) and C07 (re-blocking).
* **C96 Angle of a uniformly rotating shaft.** Model `Model/Angle.lean` (window choice, spline as any function reproducing lines, angle in turns). Proved for one trigger per turn and at least twice as many triggers as spline points (`C96_uniform_partial`). Violated otherwise: with several triggers per turn every spline window restarts at 0, so the second trigger gets the angle of the first (`C96_per_revo_violated`); with too few triggers every sample raises IndexError (`C96_few_violated`); samples more than a turn after the last trigger raise ValueError (`C96_end_violated`).
* **C97 Momentary and average rotational speed agree.** `C97_average` (closed form), `C97_rpm_partial` (momentary speed = triggers per turn × average), hence violated for more than one trigger per turn (`C97_rpm_violated`).
* **C98 Constant rotation does not depend on the block size.** `Model/Interp.lean: constantRotation`; induction over the blocks with the carried angle (`C98_constant_rotation`), for an arbitrary per-row core. (`SpatialInterpolatorRotation.result` calls the array `angle_source.angle` and therefore always raises TypeError; it is not modelled further.)
* **C99 Interpolation between the microphones of a ring.** `numpy.interp(..., period)` is modelled after its documented algorithm. `C99_aligned`, `C99_linear`, `C99_bounded` for all angle sets; identity without orientation matrix (`C99_identity_partial`); with one it is false since the matrix is applied to the real microphones only (`C99_transformation_violated`).
* **C100 Inverse distance weighting interpolates.** `C100_bounded_partial`, `C100_identity_partial` (array plane at height zero). False otherwise: the height of the virtual microphones is set to zero (`C100_height_violated`, every array at another height), and any other number of virtual microphones raises ValueError (`C100_count_violated`).
* **C101 Power weighting gives constant power per array area.** `Model/PowerWeight.lean` (unique, histogram, edges). `C101_constant_power_partial`: for at least two rings, every ring is described independently of the code (`Spec.ArrayRing`). `C101_single_ring_violated`: for one distance only (e.g. circular arrays) the function raises IndexError.
* **C102 Bar spectra show complete bands with their band sums.** `Model/BarSpectrum.lean` (nominal centre frequencies, selection of indices, borders, duplication of entries; broadcasting error). `C102_selection_partial`: no complete band is missed, no band exceeds the upper end, all but the first begin inside. `C102_lower_violated`: whenever the 31.5 Hz band is below the range, the first returned band is an incomplete one (off-by-one in `i_low`). `C102_bars_partial` and `C102_bardata`: heights and borders (`Spec.barEdge`). `C102_empty_violated`: ValueError with bar=True if no band fits, since `i_high - 1 = -1`. Masking in bardata is not modelled.
* **C103 Speed of sound in air is plausible over the whole valid range.** `Model/Air.lean`, over the real numbers with `Real.exp`. `C103_range`, `C103_temperature`, `C103_humidity`, `C103_co2`, `C103_error`. `C103_negative_violated`: negative humidities are accepted and give negative speeds.
* **C104 Reference, distances and transfer matrix of a steering vector.** `Model/Steering.lean` over the distance tables of `Model/Env.lean` (flattening for one microphone, `atleast_2d`, broadcasting of the gufunc). `C104_distance`, `C104_position`, `C104_refused`, `C104_index`; `C104_transfer_partial` for arrays of at least two microphones (or one grid point). `C104_single_mic_violated`: one microphone and several grid points give a transposed distance table and ValueError. `C104_zero_violated`: reference distance 0 is accepted, then TypeError.
* **C105 Emission times of moving sources.** `Model/MovingSource.lean`: trajectory as location and velocity functions, the loop with at most 100 passes and the limit `epslim`. `C105_unique` (existence and uniqueness by the intermediate value theorem), `C105_accuracy_partial` (whenever the loop stopped because of the limit, error bound), `C105_convergence_partial` (Mach numbers for which the iteration is a contraction). `C105_no_convergence_violated`: at Mach 0.6 the iteration (which uses the Mach number relative to the origin instead of the microphone) can run in a 2-cycle; it is stopped after 100 passes with a wrong result. A source passing through the origin gives 0/0 (`none`).
* **C106 Convective amplification of moving sources.** `C106_at_rest_partial`; `C106_sign_violated`: for a microphone in the origin the sign is reversed, approaching sources are attenuated; `C106_position_violated`: the factor does not depend on the position of the microphone.
* **C107 Moving dipoles are dipoles carried along.** `C107_translation`, `C107_at_rest_partial`; violated in direction (`C107_direction_violated`: cross product with the reference vector after the rotation), length (`C107_length_violated`), position (`C107_first_mic_violated`) and retardation (`C107_retardation_violated`).
* **C108 Moving line sources are sums of moving monopoles.** `C108_time_partial` (moving monopoles and dipoles), `C108_time_violated` (the line source is one sample late), `C108_amplification_partial` (one monopole or no amplification), `C108_amplification_violated` (only the last monopole is amplified).
* **C109 Sound rays in general flows obey geometrical acoustics.** `Model/Rays.lean`: right hand side of the ray equations and initial values (integration, hull and interpolation not modelled). Spec: Hamilton's equations through directional derivatives (`Spec/Rays.lean`). `C109_position` (all flows), `C109_slowness_iff` (the change of the slowness `-J s` is right exactly if `(J + Jᵀ) s = 0`), `C109_rotating_partial`, `C109_uniform`, `C109_scale`, `C109_start`, `C109_conserved_partial`. `C109_jet_violated`: in the shear layer of the open jet the refraction is wrong for all rays that are not tangential (the code has `-J s` instead of `Jᵀ s`).
* **C110 Sound pressure levels.** `Model/Level.lean` with real numbers; spec: `10 lg(x/p0^2)` with p0 = 20e-6. Properties of the logarithm and of the maximum.
* **C111 Radiation angles of spherical harmonic sources.** `Model/SphHarm.lean`: `radiationAngles` with `arctan2` as the argument of a complex number and numpy's `mod`. `C111_azimuth`, `C111_elevation` state the angles without arctan2 and mod. False of the code: the elevation is the sum of two polar angles and a right angle, so it leaves [0, pi] (`C111_elevation_violated`, also in the example of the documentation) and changes when source and microphone turn about the z axis (`C111_rotation_violated`); only turning about the y axis changes nothing (`C111_rotation_partial`).
* **C112 Modes of spherical harmonic sources.** `Model/SphHarm.lean`: the two loops over degrees and orders with the running column index; scipy's `sph_harm` is defined by the formula of its documentation (associated Legendre functions by derivatives of polynomials). `C112_columns` (bijection of degree/order and columns), `C112_modes`, `C112_real`; not invariant under rotations: `C112_rotation_violated`.
* **C113 Frequency weighting filters.** `Model/FreqWeight.lean`: analog polynomials and scipy's `bilinear` as polynomials; `tf2sos` not modelled. Poles: the bilinear map takes the outside of the unit circle to the right half plane. Gain: `C113_analog` (that of the standard), `C113_response_partial` (at the warped frequency (fs/pi) tan(pi f/fs)); false of the code near half the sampling frequency, where the gain is zero (`C113_response_violated`). `C113_reference`: 0 dB at 1 kHz by rational bounds of the two powers of ten.
* **C114 Point sources with impulse responses.** `Model/PointConv.lean`: composition of the models of `TimeSamples.result` and `TimeConvolve.result` (C49). `C114_channel`, `C114_convolution_partial` (one impulse response per microphone, not longer than a block, no lost last block), `C114_errors`. False of the code: a single impulse response reaches the first microphone only (`C114_single_kernel_violated`), the declared number of samples is that of the signal (`C114_num_samples_violated`).
* **C115 Integration over sectors without predefined grid.** `Model/AdaptiveInt.lean` on top of the model of C46: object with optional arrays and the up-to-date flag of `result`; sector as a predicate. `C115_integral_partial` (map calculated before), `C115_complement`, `C115_no_sector`. False of the code, which determines the slots in the sector before it accesses and calculates the result: TypeError at first use (`C115_first_use_violated`), all or nothing after an access without calculation (`C115_uncalculated_violated`), new levels with old positions after a change of a parameter (`C115_stale_violated`).
* **C116 Eigenvalues of frequency bands.** `Model/SyntheticEv.lean`; `eigh` enters with its contract as a specification (`Spec.IsEigh`: unitary diagonalisation, ascending values). `C116_band_partial`, `C116_line_partial`, `C116_power_partial` (trace), `C116_ascending`. False of the code: a band without lines gets the values of the next line (`C116_empty_band_violated`), beyond the highest line IndexError (`C116_beyond_violated`).
* **C117 The kind of steering vector object does not matter.** `Model/BfDispatch.lean`: steering vector objects (class itself, or derived with arbitrary methods), choice of the kernel. `C117_map`, `C117_psf`, `C117_derived` reduce all paths to the quadratic form of `Spec/Beamform.lean`, using C23 to C26.
* **C118 The gridless search maximises the map.** `Model/BfDispatch.lean` (`gridlessObjective`): the function handed to the optimiser; the optimiser itself is not modelled. `C118_bounds`, `C118_map_partial`. False of the code: reference position or distance (`C118_reference_violated`) and steering vectors of derived classes (`C118_derived_violated`) are ignored.
* **C119 New samples are noticed.** `Model/DataSwap.lean`: state machine of trait values and the two cached properties, invalidated by announced changes of the listed dependencies. `C119_shape_change_partial`, `C119_masked_window_partial` over all sessions by induction (caches fresh). False of the code: samples of the same shape (`C119_same_shape_violated`) and any samples of a masked source (`C119_masked_violated`) are not noticed; `C119_masked_remedy`.
* **C120 Lines, frequencies and tones.** `Model/FreqAxis.lean` (numpy's `fftfreq` layout, block size setter, validation, cross spectral matrix from blocks, on top of the windows of C14, the transform of C95 and the matrix of C15); specification of tones in `Spec/Tone.lean`. `C120_axis`, `C120_axis_used`, `C120_block_size`, `C120_irfft_accepts`, `C120_tone`, `C120_constant`, `C120_csm_tone` (orthogonality of characters of Z/n).
* **C121 The power of the spectrum is the power of the signal.** Parseval's theorem for the one-sided spectrum: `C121_weighted` for every window function and overlap, `C121_power` (whole blocks, no window function) with the exact excess, `C121_power_partial`. False of the code for signals with offset or a component at half the sampling frequency: first and last line are doubled (`C121_offset_violated`).
* **C122 From samples to the map of a tone.** Composition of the models of C14, C15, C23, C26, C95, C120 (`Props/EndToEnd.lean`); specification: the recording of a monopole tone. `C122_map`, `C122_level`, `C122_location`, `C122_level_diag` ('inverse'). False of the code for removed diagonal and 'true level': the correction n/(n-1) does not fit unequal distances (`C122_level_diag_violated`).
* **C123 Regularisation of generalised inverse beamforming.** On the model of C83 (`suzukiSolve`): normal equations of weighted ridge regression, both branches (`C123_ridge_partial`, `C123_whole_partial`). False of the code: the parameters are stored in an array of integers (`epsilon = arange(n_iter)`), so values below 1 become 0 (`C123_epsilon_violated`, `C123_minimum_violated`).
* **C124 Identifiers of simulated sources determine their output.** `Model/SourceDigest.lean`: the settings listed in `depends_on` of each class and the output as a function of all settings (models of C39, C105-C108). Proved for point sources (`C124_point_partial`), for the others under equality of the forgotten settings (`C124_moving_partial`, `C124_moving_dipole_partial`, `C124_line_partial`). False of the code: oversampling of moving sources, path of moving dipoles, length of line sources do not enter the identifier (`C124_moving_violated`, `C124_moving_dipole_violated`, `C124_line_violated`). Printed forms are assumed to tell the settings apart and to have equal lengths (other than the last).
* **C125 Chains of processing blocks.** `Model/Chain.lean` connects the models of C01-C13 and C58 (an inductive type of object trees, `num_samples` as Python number, `result` by recursion over the tree); the specification (`Spec.Means` in `Props/Chain.lean`) gives each tree a signal without reference to blocks. By induction over the tree: `C125_chain_partial`, `C125_block_size_partial`, `C125_announced_partial`; `C125_means_unique`. False of the code: `Average` announces a fraction (`float`), so that selecting samples or zero phase filtering behind it raises `TypeError` for all settings (`C125_average_violated`); `Mixer` announces the number of its first source although it stops with the shortest (`C125_mixer_violated`). Blocks are values in this model; that the code shares arrays is the subject of C152.
* **C126 Two ways to the cross spectral matrix agree.** `Model/CsmChain.lean` connects the models of C03, C14, C56 and compares with `csmFromBlocks` (C15, C120). `C126_cross_partial` (equality up to the ratio of `num_blocks` and the number of windows, for scaling 'none'), `C126_cross_equal_partial`, `C126_auto_partial` (equality for suitable lengths). False of the code: for other lengths (`C126_cross_violated`: every entry that is not zero differs) and for scaling 'energy' (`C126_energy_violated`: factor four).
* **C127 The identifier of a beamformer determines its result.** `Model/BfDigest.lean`: the settings of all classes in one record, the values listed in `depends_on` of each class, and the row of the result by class (calling the models of C19-C30, C72-C78 and others); eigenvalue routine, solvers and global minimiser are arbitrary functions of what they are given. `C127_row_partial` for all classes with a grid, `C127_gridless_partial` under equality of `n`, `C127_inverse_form`. False of the code: gridless orthogonal beamforming forgets `n` (`C127_gridless_violated`); `inv_digest` hashes the dependencies of `digest`, so it contains the formulation at the time of the last calculation (`C127_inverse_identifier_violated`). Same assumptions on printed forms as C124.
* **C128 Deconvolution returns the sources of exact data.** `Spec.incoherentCsm`, `Spec.monopoles`: the exact matrix. `C128_damas_inverse_violated`: two monopoles, formulation 'inverse', the sweeps end at (0, 41/16) instead of (1, 1). `C128_map` (all formulations, from C23 and C26); `C128_damas_fixed`, `C128_damas_partial` (linear convergence from C27, for the formulations of correct level and point spread functions whose other values add up to less than one); `C128_damas_level` (`Props/DamasConverge.lean`: for 'true level' the sweeps are a coordinate descent for the Frobenius norm of the difference of the matrices, so they converge to the powers whenever the matrix determines them, `Spec.Determined`; from `C27_converges`: descent, compactness, uniqueness of the complementarity problem); `C128_clean_partial` (one source, closed form for every number of iterations, from C28); `C128_clean_several_partial` (several sources with little overlap, from `C28_several` in `Props/CleanMany.lean`: the rest stays non-negative and at the sources, its sum decreases geometrically). False of the code: with a formulation whose point spread function is not one at the source the powers are no solution of DAMAS (`C128_damas_uncalibrated`, `C128_classic_violated`); with diagonal removal map and point spread functions do not belong together for more than one source (`C128_rdiag_violated`).
* **C129 CLEAN-SC removes a single source exactly.** Analysis of the inner iteration of `cleanscCalc` (C29). `C129_fixed_point`: with diagonal removal the exact component is a fixed point, for all sources and steering vectors; `C129_no_fixed_point`: without diagonal removal it never is, for any matrix, since the iteration leaves out the diagonal regardless of `r_diag`. For a source at equal distance from microphones and reference the whole algorithm has a closed form: `C129_rdiag_partial` (error of the component less than `1/n^20`), `C129_full` and `C129_overestimated_violated` (the power is overestimated by at least the part `1/(n+1)`).
* **C130 Zero phase filters deliver the filtered signal and nothing else.** `FiltFiltOctave.result` (Model/Filter.lean) with the preallocated array as an arbitrary function `junk`; `sosfiltfilt` is an arbitrary function on signals. `C130_exact_partial` if the source delivers what it announces. Otherwise: fewer samples, the rest of the array is filtered along (`C130_short`, `C130_short_violated`); more samples, ValueError (`C130_long`) or, row by row, loss without notice (`C130_long_rows`).
* **C131 What is recorded can be loaded again.** Model/H5Files.lean: a file is its rows, the attribute `sample_freq` and the tree below `/metadata`; both libraries (PyTables with an arbitrary check of names). `C131_save_partial`, `C131_interrupted_partial` (state after every flush; buffers not yet flushed are not modelled), `C131_load_partial` (after every history). False of the code: assigning the same name again loads nothing (`C131_same_file_violated`); metadata that cannot be encoded or named make the recording fail after the file has been emptied (`C131_unicode_violated`, `C131_name_violated`); a `/` in a key changes the structure (`C131_slash_violated`).
* **C132 Rotation with tracked angles uses the angle of each sample.** Model/Tracked.lean: the call of the property `angle`, broadcasting of angles over the rows of a block, the generator; the interpolation of one row is a parameter (C98 to C100 for concrete ones). False of the code: an array is called, so that nothing is ever delivered with an `AngleTracker` (`C132_tracker_violated`). For angles that can be called: `C132_tracked_partial` if there are as many as samples, `C132_short_violated` (no rotation after the last angle, without notice), `C132_long_violated`, `C132_still`.
* **C133 A spherical harmonic source is a point source with a directivity.** Model/SphFull.lean: the generator from the settings to the blocks, with the modes of C112 and the transformation of C94; the Fourier transforms are exact. `C133_rows_partial` for every block size, with the position of emission shifted by `pi/30` samples; `C133_monopole` (order zero). False of the code: the shift (`C133_delay_violated`: for an oversampling of at least ten always another sample than the point source), and the direction is missing in the identifier (`C133_direction_violated`).
* **C134 A moving source that does not move is a source at rest.** Model/MovingLine.lean adds the generator of `MovingLineSource`; the others are those of C124. `C134_point_partial`: equal blocks if `start` is zero. False of the code: `start` is added twice for moving sources (`C134_rows`, `C134_start_violated`); a source in the origin delivers nothing, since a unit vector of its position is formed (`C134_origin_violated`); line sources are one sample ahead (`C134_line`, `C134_line_violated`); the identifier of a moving line source does not depend on the trajectory (`C134_identifier_violated`).
* **C135 Objects that share a cache file get their own samples.** Model/SharedCache.lean: the identifiers of all objects of a chain (C125), computed from class name, identifiers of sources and printed settings; one file with nodes named by identifiers; histories of runs of caches behind arbitrary chains. `C135_identifier_partial` (induction over the chain): equal identifiers mean equal signals, provided the hash does not collide on the texts that occur and the settings printed without separation are told apart (`Distinct`); `C135_shared_partial`: then every chain delivers its own signal after every history. Missing: caches among the sources write in runs of their own, not interleaved with those of other objects. False of the code without the proviso: `C135_exchange_violated`, `C135_masked_violated` (for every hash function).
* **C136 Benchmark files: the cross spectral matrix does not depend on the convention of the writer.** `Model/Aiaa.lean`: the nodes of a benchmark file as a structure, the transposition and sign of `_get_csm`, the stem of a path, and `CsmAIAABenchmark` as a state machine (file, open file, what was assigned to `csm`, checksum, cached value). `C136_csm`: against signed transforms of real blocks, using C15; `C136_hermitian`, `C136_history` (invariant over histories), `C136_samples` (from C01), `C136_lines`, `C136_identifier_partial`; `C136_assign_violated`, `C136_same_name_violated`. Not modelled: metadata, trailing slashes in paths, `num_channels` (read from an attribute of the file), eigenvalues (C76).
* **C137 A sample splitter can be used by several threads.** Model/SplitThreads.lean: a machine with one program counter for each thread; a step is one access to shared data (test of a flag, test of a buffer, `pop`, inspection of one buffer, `next` of the locked generator, appending to one buffer), schedules are arbitrary lists of threads. For all schedules once the source generator exists (`C137_begin`: this is reached): `C137_once` (no block twice, none foreign), `C137_conserved` (at the end each block is delivered or left in the buffer), `C137_no_crash`, `C137_overflow` (at most one more block after an overflow was noticed). Order only if no block is fetched while another is distributed: `C137_order_partial`, `C137_complete_partial`. False of the code otherwise, with schedules: `C137_order_violated`, `C137_last_block_violated`, `C137_two_sources_violated`, `C137_crash_violated`, `C137_silent_loss_violated`. Creating the generator is one step in the model. Registration and removal during a run are not modelled.
* **C138 Several threads can ask for cache files at the same time.** Model/CacheThreads.lean: `get_cache_file` as a machine with one program counter for each thread, a step is one access to shared data, schedules are arbitrary. `C138_shared_partial`: mutual exclusion, one handle for each file and no exception if the test of `busy` and setting it are not separated by the test of another thread; `C138_no_blocking`: for every interleaving and both libraries the flag is not set when nobody is inside. False of the code: `C138_exclusion_violated` (h5py: two handles), `C138_raises_violated` (PyTables). Counters and closing of files: C40.
* **C139 Two consumers can read the same cached source in turn.** Model/CacheShared.lean: generators of `Cache.result` as states, one step is one `next`, array nodes with identity (a generator keeps its node after another one removed it), PyTables or h5py. `C139_blocks` (every schedule, modes, block sizes: delivered = beginning of the blocks, complete at the end; h5py: no failure), `C139_file` (the invariant `CacheInv` of C04 survives every schedule), `C139_readers` and `C139_one_writer` (both libraries: no failure). False of the code with PyTables, where a removed node is closed: `C139_pair_violated`, `C139_overtaken_violated`, `C139_overwrite_violated`. The source is asked afresh by each generator (it does not depend on the others).
* **C140 Objects can join and leave a sample splitter while others are running.** Model/SplitHistory.lean: C06's machine with operations register, remove, restart and next; each generator keeps the list of objects it inspects. `C140_subsequence` (any history), `C140_watched` (treatment 'error', common size, all running generators began after the registration: no gap, complete at the end), `C140_keeps_up` (any treatment and size: no gap while there is room), both for the situations of `C140_joined` and `C140_started`; `C140_no_keyerror`. False of the code: `C140_remove_violated` (KeyError in another consumer), `C140_join_violated` (blocks lost without error). Buffers of size 0 excluded. `_change_buffer_size` is not modelled (it changes a dictionary while iterating over it).
* **C141 One source: place and level in the maps of the beamformers.** Props/SingleSource.lean, on the model of all beamformers (Model/BfDigest.lean). The field of the source is stated from positions, frequency, speed of sound and reference (`Spec.pressure`), so the distances and the wave number of the code are part of what is proved. `C141_base`, `C141_functional` (formula with the exponent on the coherence; `C141_functional_inverse_violated`: with 'inverse' the coherence at the source is below one unless all distances are equal, so the level is too small), `C141_eig` (equal to the conventional map), `C141_orth` (single source with the mean power), `C141_capon` (closed form with noise). The eigenvalue routine enters by its contract `IsEigh`. `C141_capon_level_violated`: with 'true level' Capon does not give the level at the reference.
* **C142 Beamformer results belong to the present settings.** Model/BfHistory.lean: several beamformer objects with settings, arrays with identity, nodes of the cache file by name, the property `result` with its invalidation by `digest`; operations: change of settings, of `cached`, of the global mode, `bf.result[i]`, keeping `bf.result` and using it later, end of the process, death between the assignment of a line and its flag. `C142_current_partial`, `C142_held_partial`, `C142_available` by an invariant with an owner for every array; hypothesis `NodeDetermines` (equal identifiers, equal results) is the subject of C127. False of the code: `C142_held_violated`, `C142_overwrite_violated`. Keys other than a single line, and death while the node is created: C21.
* **C143 Window functions and the level of tones.** Model/Window.lean: the five window functions of numpy (formulas from numpy's documentation). `C143_amplitude`: line of the amplitude spectrum for any window. `C143_csm`, `C143_map`: matrix and map for lines `l` where the spectrum of the window vanishes at `2 l`; `C143_quarter`: all five windows at a quarter of the sampling frequency. `C143_gain_le`, `C143_gain_eq_one_iff`: the gain is at most one, and one for constant windows only. False of the code: `C143_level_violated` (Hanning shows less than two thirds of the mean square).
* **C144 DAMAS+ returns the sources of exact data.** Model/Inverse NnlsResult, LpResult (solutions of the problems handed to scipy) with the map and the point spread functions of C128; Props/DamasPlus.lean. `C144_nnls`: the powers are the only result. `C144_lp_most_partial`: for symmetric point spread functions the linear program finds the powers that leave least of the map unexplained; `C144_lp_partial`: exact data, grid points with equal mean square over the microphones. False of the code otherwise: `C144_lp_violated` (one of two sources is missing).
* **C145 Every grid point has a travel time in a general flow.** Model/RayTimes.lean: the loop along a ray (integrator as a parameter), the loop over the rays with the test whether grid points are corners of the convex hull, the linear interpolation. `ConvexHull` and the triangulation are described by what is known about them (`HullOf`, `RayMesh`, `IsDelaunay`; `C145_hull_exists`: satisfiable for all points). `C145_points`, `C145_ends`, `C145_covered`, `C145_bounds`, `C145_on_rays`, `C145_uniform`. False of the code: `C145_cone_violated` (if all rays are used up without enclosing the region, which cannot be avoided for points outside of the cone of the solid angle `Om`, the distance is nan; with the default value points more than 60 degrees from the middle ray).
* **C146 Interpolation uses the present geometry.** Model/InterpHistory.lean: the object with its settings and the coordinates kept in `_traits_cache_virtNewCoord` (the decorator is on a method for which there is no property), operations are assignments, readings and rows. `C146_coordinates`: in every history the coordinates are those of the first row. `C146_settings_partial`: right if the geometry is set before the first use. False of the code: `C146_virtual_violated` (the sample of the former place is returned), `C146_default_violated` (the number of channels stays when the microphones are replaced).
* **C147 The chosen interpolation method is carried out.** Model/InterpHistory.lean: the branches of `_result_core_func` by dimension and method, the computations as parameters. `C147_method_partial` for the 18 offered combinations, `C147_custom` (dimension 'custom' raises). False of the code: `C147_zero_violated` (all others give zeros for all samples, without an error).
* **C148 Linear interpolation for plane arrays.** Model/InterpMesh.lean: the first mesh in angle and radius, copies of its border by a turn to both sides, selection of neighbours, second mesh, fill value zero, additional point in the origin. Triangulations are described by what is known about them (`PlaneMesh`, `HullNumbers`; `C148_mesh_exists` and `C148_array_exists`: satisfiable for all points). `C148_range_partial` (between the least and the greatest radius the whole turn is covered: proved from the neighbours on the border lines), `C148_aligned_partial` (not for microphones at the angle pi, where the copy may be missing), `C148_origin`. False of the code: `C148_outside_violated` (zero outside of the radii).
* **C149 The sound of a fixed dipole.** Model/Dipole.lean: pole distance, places of the poles, indices and rows. Specification: the dipole field is the derivative of the field of a monopole with respect to its place (`Spec.IsDipoleField`), whose value is `C149_field`. Proved: `C149_rows`, `C149_poles_partial`, `C149_perpendicular`, `C149_reverse`, `C149_far_partial` (both poles read the same sample - near field only - or neighbouring samples). False of the code: `C149_far_violated` (with the recommended pole distances the part with the derivative is missing, for every sampling frequency and upsampling factor) and `C149_spike_violated` (at other distances it is too large by a factor of 10^5/(3 up |direction|)).
* **C150 Changing the caching mode during a session.** Model/CacheRights.lean: one cache file, its nodes, the rights with which it is open, objects that use it, changes of the mode, requests, deletions, restarts. Invariant over histories: `C150_values` (never a wrong value), `C150_switch_partial` (no failure if writing modes are not used after a request in the mode readonly in the same process), `C150_readonly`, `C150_stored`. False of the code: `C150_switch_violated` (a file opened for reading stays so; requests in writing modes then fail). The histories of C04, C20, C21, C135, C142 leave the rights out.
* **C151 Least norm solution of the inverse method with reweighted least squares.** Model/Irls: one iteration with the inverses of the weights and of the Gram matrix (singular: LinAlgError), the loop over n_iter. Exactness of every iterate, optimality of fixed points by Young's inequality (for the exponent 4 - pnorm, because the weights enter inverted), the case pnorm = 2. False of the code for pnorm = 1 (a cycle of length two that never comes near the least sum), for more channels than points (AttributeError), and when an amplitude becomes exactly zero (LinAlgError).
* **C152 Chains of processing blocks do not disturb each other through shared arrays.** Model/HeapChain.lean: memory of arrays, blocks as views, every object as a sequence of stores and yields (`HObj.deeds`), the objects of C125 (except those that fail) with the copies and in-place operations of the code, point sources (one array filled again and again), noise sources and `SourceMixer`. Lemmas/HeapChain.lean: a small program logic `OK own keep W F P` (what is written, what the consumer may overwrite or keep), one lemma per object; `Props/HeapChain.lean`: induction over the tree. False of the code: `C152_reverse_violated`, `C152_mixer_violated`, `C152_mixer_reverse_violated`, `C152_mask_violated`, `C152_overwrite_violated`, `C152_keep_violated`, `C152_simulated_violated`, `C152_source_mixer_violated`. Several consumers: C153. Not modelled: arrays of non-contiguous views, `FilterBank`.
* **C153 Consumers of a sample splitter do not disturb each other.** Model/SharedSplit.lean: the splitter on the memory of C152 (one array in all buffers; buffers long enough, one thread), any chain of C152 as source, any order of requests. `C153_consumers_partial` (source keeps its blocks; invariant: everything fetched can still be read), `C153_in_step_partial` (rounds; any source). False of the code: `C153_mask_violated`, `C153_simulated_violated`, `C153_mixer_violated`.
* **C154 Filtered noise obeys its recursion and is not delayed.** Model/NoiseFilter.lean on top of `sosfilt` (C10) and `filteredNoise` (C72); `tf2sos` by its documented contract (`Spec.IsTf2sos`: product of the sections = given rational function, in power series). `C154_recursion`, `C154_symmetric_partial`; false of the code: `C154_early_violated`, `C154_feedback_violated`.
* **C155 Superposition and the order of linear steps.** Props/Superposition.lean, on the chains of C125 (Model/Chain.lean). `Spec.Steps`: networks of linear objects behind a variable source, with what becomes of two signals; `steps_mean`: induction, a linear combination of sources gives the linear combination of results. `C155_mixture`, `C155_scale`; `Spec.TimeSteps` for networks that treat all channels alike: `C155_calib`, `C155_channels`; `Spec.SameTransfer` (products of sections as power series): `C155_transfer`, `C155_filters`. `C155_limits`: what may not be exchanged.
* **C156 MUSIC.** Props/Music.lean, on `BfSet.row` (Model/BfDigest.lean) and `musicMap` (Model/EigBeam.lean). `Spec.noisySources`: matrix of uncorrelated sources plus equal noise; `Spec.IsDistance b v d`: `d` is attained and minimal among the energies of `v - Σ c_j b_j`. `noise_space`: the eigenvectors kept by MUSIC have eigenvalue σ and are orthogonal to all source fields (counting dimensions, the spectrum is ascending); `noise_distance`: the sum of squared scalar products with them is the distance to the span. With that `C156_map`, `C156_sources`, `C156_single`; `C156_noiseless_violated` for σ = 0.
* **C157 Coordinates and scale.** Props/Frame.lean, on `BfSet.row` (Model/BfDigest.lean). `Spec.Similarity f L`, `Spec.carried f L s`. The kernels, norms, transfer functions and point spread functions are homogeneous of degree zero in the lengths (`alike_of_scale`); the iterations of CLEAN-SC and the orthogonal beamformer see the geometry only through them (`Alike`, `row_alike`). Hence `C157_similar`, `C157_motion`. `C157_reference` for the dependence on the reference; `_violated` for the default reference and for the gridless class, which ignores `steer.ref`.
* **C158 Gain.** Props/Gain.lean on `BfSet.row`. `Spec.louder a s`, `Spec.TimesMap`. The iterations are homogeneous of degree one in map and matrix, including the stop conditions (`cleanFlag_mul`, `stop_mul`). Lemmas/Spectral.lean: functions of a Hermitian matrix, its eigenvalues in ascending order, the part of a simple eigenvalue and the part below a gap do not depend on the choice of the eigenvectors (`eigh_fun`, `eigh_values`, `eigh_simple`, `eigh_below`), so nothing is assumed about which eigenvectors the routine returns (`Spec.Diagonalises`). Solvers: `C158_solvers` on the result predicates of Model/Inverse.lean.
* **C159 Numbering.** Props/Numbering.lean on `BfSet.row`. `Spec.renumbered σ s`, `Spec.reordered τ s`. The matrix is written with its eigenvectors, for which the kernels are sums over the channels (`eig_perm`, `full_perm`); CLEAN-SC carries the renumbered matrix through its loop (`scPerm`, `loop_perm`). Eigenvectors of the renumbered matrix: Lemmas/Spectral.lean. `C159_damas_violated`: symmetric array and two symmetric grid points; swapping them gives the same numbers again, and they differ.
* **C160 CLEAN-T.** Model/Cleant.lean: the whole deconvolution of a block (`CleantGeo.block`, `CleantTrajGeo.block`) on top of `cleantLoop`; `interpHold` is `numpy.interp`. Spec/Cleant.lean: `arrived`, `blockPower`. `C160_subtract` evaluates the interpolation for all fractional delays; scaling of the whole state gives `C160_louder` and, since a single source is only scaled by `1 - damp` in each iteration, `C160_source` and `C160_auto_violated`. A read outside of the data is taken as zero in `CleantGeo.beam`; C45 shows that none happens. Precision 32 and convective amplification are not part of `C160_rest`.
* **C19 (addition).** `C19_calib_partial`, `C19_import_grid_partial`: the positive statements, prompted by a mutation (digest without the data) that only violated claims had looked at.
* **C161 Convective amplification of the moving grid.** Verif/Model/TrajBeam.lean (`macosTheta`, `convDistance`, `trajR0`, `TrajBeam`), Verif/Props/TrajBeam.lean. Real numbers; values that are not a number are `none`; at least two microphones.
* **C162 Moving grid, reference, rest.** same files; the theorems connect the geometry (`movingGpos`, travel distances, reference) with the block loops of C75 and C44.
* **C163 Announced attributes.** Verif/Model/FlowAttrs.lean (`FlowObj`: classes, traits, delegation, number of columns), Verif/Props/FlowAttrs.lean. Only the numbers of columns and the attributes are modelled, not the values in the blocks; each block has at least one row; cross spectra in mode 'full' (for the others see C56).
* **C164 Calibration and transform.** Verif/Props/CalibSpectra.lean on the models of C58 (`Calib.result`), C126 (`rfftRow`, `AutoPowerSpectra.result`), C15 (`csmFromBlocks`) and C56.
* **C165 Excluded channels.** `Model/ArraySelect.lean` puts `MaskedTimeSamples`, `PowerSpectra`, `MicGeom` and the beamformers together; the number of channels is a value of the model, so routines and settings are given for every number (`rt`, `set`). The theorem compares a measurement with excluded channels with one that never had them; `C165_meaning` says what the latter is, without which a model that mixes up the channels on both sides would pass (found by mutation).
* **C166 Content of files.** `Model/XmlFiles.lean` has the three imports and a small world of files on disk with an object that names one of them. `parse` stands for `float` and is arbitrary. The handler of `file` swallows exceptions (behaviour of traits for `on_trait_change`), which makes `C166_unreadable_violated` true for all three classes.
* **C167 Components.** `Model/Components.lean` adds the history of `n` and `eva_list` to the models of the two orthogonal beamformers. The numbers of components are related to eigenvalues by `Spec.Names`, independent of the two ways the classes resolve them (`pyIndex`, remainder).
* **C168 Travel in a uniform flow.** Builds on C34: distances are characterised by `Spec.Reaches` and the relations follow from its unique solution. `Model/FlowNan.lean` repeats the formula of `Model/Env.lean` with the cases numpy answers with NaN or infinity.
* **C169 Error metrics.** `Model/MetricShapes.lean` adds `_validate_shapes` and the level of `Model/Level.lean` to the three errors of `Model/Metrics.lean`. `C169_meaning` says entry by entry what is compared; the relations follow from it and C110.
* **C170 Names of files.** `Model/FileNames.lean` describes a chain by what `find_basename` looks at: whether an object has `basename`, `source` or neither. Digests and class names are arbitrary lists of characters.
