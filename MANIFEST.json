{
 "claims": [
  {
   "property": "C01",
   "status": "proved",
   "theorems": [
    "Acoular.C01_time_samples",
    "Acoular.C01_time_samples_calib",
    "Acoular.C01_time_samples_errors"
   ],
   "note": "Block contract of TimeSamples, with and without calibration; error branches."
  },
  {
   "property": "C02",
   "status": "proved",
   "theorems": [
    "Acoular.C02_masked_time_samples_calib",
    "Acoular.C02_masked_time_samples_calib_valid",
    "Acoular.C02_masked_time_samples_calib_error",
    "Acoular.C02_masked_time_out",
    "Acoular.C02_masked_time_out_empty",
    "Acoular.C02_masked_time_samples"
   ],
   "note": "MaskedTimeOut and MaskedTimeSamples, with and without calibration."
  },
  {
   "property": "C03",
   "status": "proved",
   "theorems": [
    "Acoular.C03_average",
    "Acoular.C03_average_num_samples"
   ],
   "note": ""
  },
  {
   "property": "C04",
   "status": "proved",
   "theorems": [
    "Acoular.C04_cache_transparent",
    "Acoular.C04_cache_empty_source_violated"
   ],
   "note": "Non-empty sources; an empty source raises (negation theorem). Sequential runs; two interleaved generators on one node are not modelled."
  },
  {
   "property": "C05",
   "status": "proved",
   "theorems": [
    "Acoular.C05_cache_untouched",
    "Acoular.C05_complete_means_complete",
    "Acoular.C05_full_run_completes"
   ],
   "note": ""
  },
  {
   "property": "C06",
   "status": "partial",
   "theorems": [
    "Acoular.C06_splitter_partial",
    "Acoular.C06_splitter_no_spurious_partial",
    "Acoular.C06_splitter_own_size_violated",
    "Acoular.C06_splitter_late_start_violated",
    "Acoular.C06_splitter_end_violated"
   ],
   "note": "One source pass, registered objects with one common buffer size; the negation theorems show the behaviour outside these conditions, and an error without cause at the end of the source."
  },
  {
   "property": "C07",
   "status": "partial",
   "theorems": [
    "Acoular.C07_reblock_no_loss",
    "Acoular.C07_reblock_partial",
    "Acoular.C07_overlap_partial",
    "Acoular.C07_overlap_neighbours",
    "Acoular.C07_grows",
    "Acoular.C07_overlap_grown_partial",
    "Acoular.C07_single_row",
    "Acoular.C07_short_buffer_violated",
    "Acoular.C07_equal_length_violated",
    "Acoular.C07_tight_buffer_violated"
   ],
   "note": "The full statement is false of the code for tight buffers (negation theorems); proved whenever the buffer has room for result size + source block size - 1 rows."
  },
  {
   "property": "C08",
   "status": "proved",
   "theorems": [
    "Acoular.C08_time_reverse",
    "Acoular.C08_time_reverse_empty"
   ],
   "note": ""
  },
  {
   "property": "C09",
   "status": "proved",
   "theorems": [
    "Acoular.C09_time_cum_average"
   ],
   "note": ""
  },
  {
   "property": "C10",
   "status": "proved",
   "theorems": [
    "Acoular.C10_filter",
    "Acoular.C10_filter_block_size",
    "Acoular.C10_filter_change",
    "Acoular.C10_time_exp_average",
    "Acoular.C10_time_exp_average_alpha",
    "Acoular.C10_filtfilt"
   ],
   "note": "scipy's sosfilt by its documented recurrence; the specification is the difference equation."
  },
  {
   "property": "C11",
   "status": "partial",
   "theorems": [
    "Acoular.C11_filter_bank_partial",
    "Acoular.C11_filter_bank_violated"
   ],
   "note": "False of the code when two or more rows remain for the last block (ValueError); proved when the length is a multiple of num."
  },
  {
   "property": "C12",
   "status": "proved",
   "theorems": [
    "Acoular.C12_write_h5_limit",
    "Acoular.C12_write_h5_unlimited"
   ],
   "note": ""
  },
  {
   "property": "C13",
   "status": "partial",
   "theorems": [
    "Acoular.C13_mixer_partial",
    "Acoular.C13_source_mixer_partial",
    "Acoular.C13_mixer_view_violated",
    "Acoular.C13_source_mixer_view_violated"
   ],
   "note": "Sum and truncation proved; 'sources unchanged' holds for main sources that hand out new arrays and is false for an uncalibrated TimeSamples as main source."
  },
  {
   "property": "C14",
   "status": "proved",
   "theorems": [
    "Acoular.C14_windows",
    "Acoular.C14_windows_inside",
    "Acoular.C14_windows_start",
    "Acoular.C14_windows_length",
    "Acoular.C14_rfft_snapshots",
    "Acoular.C14_rfft_empty_violated",
    "Acoular.C14_rfft_announced_violated",
    "Acoular.C14_rfft_announced_partial"
   ],
   "note": "Windows exactly as specified for every length. Around it: RFFT delivers one block of zeros when there is no window and num>=2, and announces a number of spectra that ignores the overlap."
  },
  {
   "property": "C15",
   "status": "proved",
   "theorems": [
    "Acoular.C15_csm_eq",
    "Acoular.C15_hermitian",
    "Acoular.C15_psd",
    "Acoular.C15_diagonal",
    "Acoular.C15_scale_pos"
   ],
   "note": "One frequency line; FFT values are arbitrary complex vectors."
  },
  {
   "property": "C16",
   "status": "partial",
   "theorems": [
    "Acoular.C16_count_floor_partial",
    "Acoular.C16_count_iff",
    "Acoular.C16_count_violated"
   ],
   "note": "False of the code unless block size divides overlap factor times length (equivalence proved); the count is the floor of num_blocks."
  },
  {
   "property": "C17",
   "status": "partial",
   "theorems": [
    "Acoular.C17_freq_interval",
    "Acoular.C17_freq_open_partial",
    "Acoular.C17_index",
    "Acoular.C17_fftfreq_ascending",
    "Acoular.C17_freq_open_violated"
   ],
   "note": "Proved for both limits and for index settings; with an open upper limit the last line is always included, even below the lower limit."
  },
  {
   "property": "C18",
   "status": "partial",
   "theorems": [
    "Acoular.C18_import_partial",
    "Acoular.C18_import_violated",
    "Acoular.C18_digest_violated",
    "Acoular.C18_digest_partial"
   ],
   "note": "False of the code: the checksum is that of the previous matrix.  The partial theorem gives the case where no eigenvalues were read since the assignment."
  },
  {
   "property": "C19",
   "status": "partial",
   "theorems": [
    "Acoular.C19_fixed_width_partial",
    "Acoular.C19_one_parameter_partial",
    "Acoular.C19_masked_violated",
    "Acoular.C19_rect_grid_violated",
    "Acoular.C19_time_samples_violated",
    "Acoular.C19_cache_exchange_violated",
    "Acoular.C19_import_grid_violated",
    "Acoular.C19_kernel_violated",
    "Acoular.C19_calib_violated",
    "Acoular.C19_convolve_partial",
    "Acoular.C19_calib_partial",
    "Acoular.C19_import_grid_partial",
    "Acoular.C19_samples_partial"
   ],
   "note": "False of the code: values are joined without separator; large arrays (imported grids, convolution kernels) are printed in abbreviated form; the invalid channels of a calibration do not enter.  Injective when all dependencies but the last have fixed printed width."
  },
  {
   "property": "C20",
   "status": "partial",
   "theorems": [
    "Acoular.C20_spectra_cache_partial",
    "Acoular.C20_spectra_readonly_partial",
    "Acoular.C20_readonly_no_write",
    "Acoular.C20_readonly_violated",
    "Acoular.C20_zero_sum_violated",
    "Acoular.C20_torn_write"
   ],
   "note": "Proved for every mode but readonly; readonly may fail with OSError after a crash."
  },
  {
   "property": "C21",
   "status": "partial",
   "theorems": [
    "Acoular.C21_lazy_result_partial",
    "Acoular.C21_computed_once",
    "Acoular.C21_opens",
    "Acoular.C21_sodix_partial",
    "Acoular.C21_minus_one_violated",
    "Acoular.C21_orth_violated",
    "Acoular.C21_sodix_line0_violated",
    "Acoular.C21_crash_in_creation_violated"
   ],
   "note": "False for the key -1, for BeamformerOrth after an interruption and for line 0 of BeamformerSODIX; proved for all other keys and for all beamformers that assign a line and then set its flag, and for SODIX."
  },
  {
   "property": "C22",
   "status": "proved",
   "theorems": [
    "Acoular.C22_band",
    "Acoular.C22_line",
    "Acoular.C22_beamformer",
    "Acoular.C22_adjacent_disjoint",
    "Acoular.C22_consecutive_additive",
    "Acoular.C22_nominal_bands_overlap"
   ],
   "note": "Over the reals.  The last theorem records that barspectrum's nominal bands overlap."
  },
  {
   "property": "C23",
   "status": "proved",
   "theorems": [
    "Acoular.C23_kernel_quadratic_form",
    "Acoular.C23_nonneg",
    "Acoular.C23_result",
    "Acoular.C23_result_nonneg"
   ],
   "note": "Over the reals and complex numbers; Hermitian matrix."
  },
  {
   "property": "C24",
   "status": "proved",
   "theorems": [
    "Acoular.C24_eig_kernel",
    "Acoular.C24_custom_eig_kernel",
    "Acoular.C24_all_components",
    "Acoular.C24_components_add_up"
   ],
   "note": "Eigenpairs of the spectral theorem stand for the result of eigh."
  },
  {
   "property": "C25",
   "status": "proved",
   "theorems": [
    "Acoular.C25_steer_vector",
    "Acoular.C25_predefined_eq_custom",
    "Acoular.C25_predefined_eq_custom_eig",
    "Acoular.C25_time_domain",
    "Acoular.C25_norm"
   ],
   "note": "Positive distances."
  },
  {
   "property": "C26",
   "status": "proved",
   "theorems": [
    "Acoular.C26_psf_eq",
    "Acoular.C26_psf_nonneg",
    "Acoular.C26_calibrated",
    "Acoular.C26_true_location_max",
    "Acoular.C26_classic_max"
   ],
   "note": "Positive distances."
  },
  {
   "property": "C27",
   "status": "proved",
   "theorems": [
    "Acoular.C27_nonneg",
    "Acoular.C27_calc_nonneg",
    "Acoular.C27_fixed_point_iff",
    "Acoular.C27_relaxation",
    "Acoular.C27_exact_solution",
    "Acoular.C27_nonunit_diagonal",
    "Acoular.C27_convergence",
    "Acoular.C27_objective",
    "Acoular.C27_converges"
   ],
   "note": "Over ordered fields.  In addition: convergence with geometric rate for weakly overlapping point spread functions, decrease of the objective for symmetric ones, and convergence to the unique solution for point spread functions that are positive definite up to factors (any overlap).  C27_nonunit_diagonal: for formulations whose PSF diagonal is not one an exact solution is not a fixed point."
  },
  {
   "property": "C28",
   "status": "partial",
   "theorems": [
    "Acoular.C28_run",
    "Acoular.C28_residual",
    "Acoular.C28_limit",
    "Acoular.C28_nonneg",
    "Acoular.C28_zero_iterations_violated",
    "Acoular.C28_several"
   ],
   "note": "All parts proved for n_iter >= 1; with n_iter <= 0 one component is extracted."
  },
  {
   "property": "C29",
   "status": "proved",
   "theorems": [
    "Acoular.C29_limit",
    "Acoular.C29_stop",
    "Acoular.C29_degraded",
    "Acoular.C29_result_sum"
   ],
   "note": "Over the reals; a division by a zero maximum is a NaN in the code (see C64)."
  },
  {
   "property": "C30",
   "status": "partial",
   "theorems": [
    "Acoular.C30_range_partial",
    "Acoular.C30_value_partial",
    "Acoular.C30_history_partial",
    "Acoular.C30_stale_violated",
    "Acoular.C30_components"
   ],
   "note": "False of the code after an in-place change of the microphone object; proved for all other histories."
  },
  {
   "property": "C31",
   "status": "proved",
   "theorems": [
    "Acoular.C31_size",
    "Acoular.C31_positions",
    "Acoular.C31_nearest",
    "Acoular.C31_index_of_position",
    "Acoular.C31_outside",
    "Acoular.C31_positions_3d",
    "Acoular.C31_nearest_3d",
    "Acoular.C31_outside_3d",
    "Acoular.C31_index_beyond_grid_violated",
    "Acoular.C31_not_nearest_violated",
    "Acoular.C31_scalar_increment_3d",
    "Acoular.C31_negative_increment_violated",
    "Acoular.C31_zero_increment_violated"
   ],
   "note": "Proved for extents that are whole multiples of the increment; otherwise the index may be beyond the grid or not the nearest (the two _violated theorems)."
  },
  {
   "property": "C32",
   "status": "partial",
   "theorems": [
    "Acoular.C32_rect_sector",
    "Acoular.C32_rect3_sector_partial",
    "Acoular.C32_rect3_nearest_violated",
    "Acoular.C32_circ_sector",
    "Acoular.C32_never_empty",
    "Acoular.C32_poly_sector_partial",
    "Acoular.C32_poly_nearest_violated",
    "Acoular.C32_mask_length",
    "Acoular.C32_multi_union",
    "Acoular.C32_multi_defined",
    "Acoular.C32_circle_indices",
    "Acoular.C32_circle_indices_empty",
    "Acoular.C32_rect_indices_partial",
    "Acoular.C32_rect_indices_violated",
    "Acoular.C32_box_indices_partial",
    "Acoular.C32_polygon_distance",
    "Acoular.C32_polygon_selection",
    "Acoular.C32_polygon_sector_partial",
    "Acoular.C32_simple_polygon",
    "Acoular.C32_simple_winding",
    "Acoular.C32_simple_selection",
    "Acoular.C32_simple_sector_partial",
    "Acoular.C32_polygon_indices",
    "Acoular.C32_polygon_indices_empty",
    "Acoular.C32_polygon_indices_odd",
    "Acoular.C32_poly_fallback_violated"
   ],
   "note": "The point-in-polygon test is proved for every simple polygon (convex or not, open or closed, either sense; inside = the points the polygon winds around); ConvexSector is the subject of C88. The nearest-point fallback is false of the code for RectSector3D and the polygon sectors. C32_poly_fallback_violated: which point the polygon sectors select, and the IndexError for grids of one point."
  },
  {
   "property": "C33",
   "status": "proved",
   "theorems": [
    "Acoular.C33_integrate_map",
    "Acoular.C33_integrate_maps",
    "Acoular.C33_additive",
    "Acoular.C33_monotone",
    "Acoular.C33_monotone_map",
    "Acoular.C33_covering"
   ],
   "note": ""
  },
  {
   "property": "C34",
   "status": "proved",
   "theorems": [
    "Acoular.C34_uniform_flow",
    "Acoular.C34_no_flow",
    "Acoular.C34_geometric",
    "Acoular.C34_stream_direction",
    "Acoular.C34_bounds",
    "Acoular.C34_table",
    "Acoular.C34_env_table",
    "Acoular.C34_flow_table"
   ],
   "note": "Coincident points (0/0 in the code) are excluded."
  },
  {
   "property": "C35",
   "status": "proved",
   "theorems": [
    "Acoular.C35_rotating_flow",
    "Acoular.C35_open_jet",
    "Acoular.C35_open_jet_differentiable",
    "Acoular.C35_open_jet_off_axis",
    "Acoular.C35_open_jet_axis_violated",
    "Acoular.C35_slot_jet",
    "Acoular.C35_slot_jet_differentiable"
   ],
   "note": "The jets have a kink on the axis/centre plane beyond the core, where no Jacobian exists and the code returns one nevertheless."
  },
  {
   "property": "C36",
   "status": "partial",
   "theorems": [
    "Acoular.C36_round_trip_partial",
    "Acoular.C36_round_trip_violated",
    "Acoular.C36_cylindrical"
   ],
   "note": "False of the code: x and y are exchanged; the round trip holds exactly where x = y."
  },
  {
   "property": "C37",
   "status": "proved",
   "theorems": [
    "Acoular.C37_mirror",
    "Acoular.C37_directions",
    "Acoular.C37_spacing"
   ],
   "note": "Om < 4 pi; the first direction is b up to 1e-10 where the code omits the mirroring."
  },
  {
   "property": "C38",
   "status": "partial",
   "theorems": [
    "Acoular.C38_valid_columns",
    "Acoular.C38_all_invalid",
    "Acoular.C38_pos_current",
    "Acoular.C38_export_import_partial",
    "Acoular.C38_name_violated",
    "Acoular.C38_empty_violated"
   ],
   "note": "Selection proved; if all channels are invalid an IndexError is raised.  The round trip holds for nonempty geometries and file names without XML special characters (str/float round trip is an assumption of the theorem) and fails otherwise."
  },
  {
   "property": "C39",
   "status": "proved",
   "theorems": [
    "Acoular.C39_alias_history",
    "Acoular.C39_decorator_error"
   ],
   "note": "For tables in which no new name is itself deprecated."
  },
  {
   "property": "C40",
   "status": "partial",
   "theorems": [
    "Acoular.H5.C40_counts_partial",
    "Acoular.H5.C40_no_blocking_partial",
    "Acoular.H5.C40_attached",
    "Acoular.H5.C40_change_of_file_violated",
    "Acoular.H5.C40_dropped_counted_violated",
    "Acoular.H5.C40_readonly_violated"
   ],
   "note": "False of the code when an object changes its file: KeyError, then every later call blocks."
  },
  {
   "property": "C41",
   "status": "partial",
   "theorems": [
    "Acoular.C41_traj_partial",
    "Acoular.C41_traj_default",
    "Acoular.C41_zero_end_violated",
    "Acoular.C41_zero_end_example",
    "Acoular.C41_end_without_step_violated"
   ],
   "note": "False of the code for t_end = 0, which is taken for a missing argument."
  },
  {
   "property": "C42",
   "status": "partial",
   "theorems": [
    "Acoular.C42_point_source_partial",
    "Acoular.C42_late_start_violated",
    "Acoular.C42_no_samples_violated",
    "Acoular.C42_guarded_loop",
    "Acoular.C42_moving_point_source",
    "Acoular.C42_unguarded_loop_partial",
    "Acoular.C42_unguarded_loop_violated",
    "Acoular.C42_short_signal_violated",
    "Acoular.C42_dipole_partial",
    "Acoular.C42_line_row",
    "Acoular.C42_uncorrelated_noise"
   ],
   "note": "False of the code: PointSource with zero padding and late acquisition (too many blocks), no samples (one block), dipoles and line sources when num divides num_samples (trailing empty block), signals shorter than the delay (fewer rows)."
  },
  {
   "property": "C43",
   "status": "partial",
   "theorems": [
    "Acoular.C43_signals",
    "Acoular.C43_repeat_violated",
    "Acoular.C43_repeat_example",
    "Acoular.C43_strength_violated",
    "Acoular.C43_repeat_partial",
    "Acoular.C43_default_strength_violated"
   ],
   "note": "False of the code unless all strengths are one: the amplitude of the shared generator is multiplied for every monopole and never restored."
  },
  {
   "property": "C44",
   "status": "partial",
   "theorems": [
    "Acoular.C44_samples_partial",
    "Acoular.C44_output",
    "Acoular.C44_normal_end_iff",
    "Acoular.C44_short_source_violated"
   ],
   "note": "All N-d samples are delivered with the right values; afterwards ValueError unless no multiple of num lies strictly between N-d and N; fewer than d samples: ValueError at once. Without weights."
  },
  {
   "property": "C45",
   "status": "proved",
   "theorems": [
    "Acoular.C45_value",
    "Acoular.C45_outside",
    "Acoular.C45_linear",
    "Acoular.C45_integer_delays",
    "Acoular.C45_delays",
    "Acoular.C45_max_delay"
   ],
   "note": ""
  },
  {
   "property": "C46",
   "status": "partial",
   "theorems": [
    "Acoular.C46_slots_partial",
    "Acoular.C46_largest",
    "Acoular.C46_indices",
    "Acoular.C46_long_list_violated",
    "Acoular.C46_overlap_violated",
    "Acoular.C46_stale_size_violated"
   ],
   "note": "True if the component list has at most n entries (always after setting n). False of the code otherwise: IndexError, and positions overwritten by the next frequency; the number of slots is remembered when the number of frequencies changes."
  },
  {
   "property": "C47",
   "status": "partial",
   "theorems": [
    "Acoular.C47_current_partial",
    "Acoular.C47_stale_violated",
    "Acoular.C47_new_microphone_partial"
   ],
   "note": "False of the code: interpolators are kept when parameters, region or grid change."
  },
  {
   "property": "C48",
   "status": "partial",
   "theorems": [
    "Acoular.C48_cache_valid",
    "Acoular.C48_requested_partial",
    "Acoular.C48_cached",
    "Acoular.C48_history_partial",
    "Acoular.C48_several_points_violated",
    "Acoular.C48_all_points_violated"
   ],
   "note": "Holds for 'full' and for one grid index. False of the code for two or more indices in 'single'/'block': inverted int8 flags are used as integer indices and only the last column is computed."
  },
  {
   "property": "C49",
   "status": "partial",
   "theorems": [
    "Acoular.C49_delivered",
    "Acoular.C49_convolution_partial",
    "Acoular.C49_lost_block_violated",
    "Acoular.C49_long_kernel_violated",
    "Acoular.C49_single_kernel_violated",
    "Acoular.C49_channels",
    "Acoular.C49_empty_source_violated"
   ],
   "note": "Exact output characterised for all lengths. The full linear convolution is delivered for kernels up to num taps with (L+M-1) % num != 0; otherwise false of the code."
  },
  {
   "property": "C50",
   "status": "partial",
   "theorems": [
    "Acoular.C50_multi_partial",
    "Acoular.C50_overall",
    "Acoular.C50_single_first",
    "Acoular.C50_single_repeat_violated",
    "Acoular.C50_inverse_violated",
    "Acoular.C50_rect_grid_violated"
   ],
   "note": "True with multi_assignment (default). False of the code without: the data are overwritten with zeros through a view; on two- and three-dimensional grids IndexError."
  },
  {
   "property": "C51",
   "status": "partial",
   "theorems": [
    "Acoular.C51_radius",
    "Acoular.C51_disjoint_partial",
    "Acoular.C51_depth_violated",
    "Acoular.C51_shared_point_violated"
   ],
   "note": "Proved for targets in one plane; false for targets at different depths, and grid points on the common border belong to both sectors (tolerance)."
  },
  {
   "property": "C52",
   "status": "proved",
   "theorems": [
    "Acoular.C52_no_loop",
    "Acoular.C52_loop",
    "Acoular.C52_default",
    "Acoular.C52_num_samples",
    "Acoular.C52_empty_source_violated"
   ],
   "note": "A source without samples has no value k mod N: looping raises UnboundLocalError."
  },
  {
   "property": "C53",
   "status": "proved",
   "theorems": [
    "Acoular.C53_return_result",
    "Acoular.C53_empty"
   ],
   "note": ""
  },
  {
   "property": "C54",
   "status": "partial",
   "theorems": [
    "Acoular.C54_thinning",
    "Acoular.C54_nothing_removed",
    "Acoular.C54_extremum_kept",
    "Acoular.C54_first_kept",
    "Acoular.C54_result",
    "Acoular.C54_few_peaks",
    "Acoular.C54_hunk_above_one_violated"
   ],
   "note": "Termination, subsequence and distances proved for all settings; the final result exists for hunk_length <= 1 and may be a ValueError above."
  },
  {
   "property": "C55",
   "status": "proved",
   "theorems": [
    "Acoular.C55_no_clipping",
    "Acoular.C55_degenerate"
   ],
   "note": "Rounding of 0.9*2**15/mx to floating point is idealised."
  },
  {
   "property": "C56",
   "status": "partial",
   "theorems": [
    "Acoular.C56_full",
    "Acoular.C56_full_hermitian",
    "Acoular.C56_triangular_violated"
   ],
   "note": "Full mode proved; the triangular modes raise ValueError for two or more channels."
  },
  {
   "property": "C57",
   "status": "proved",
   "theorems": [
    "Acoular.C57_sound_device"
   ],
   "note": ""
  },
  {
   "property": "C58",
   "status": "proved",
   "theorems": [
    "Acoular.C58_channel_mixer",
    "Acoular.C58_time_power",
    "Acoular.C58_calib"
   ],
   "note": ""
  },
  {
   "property": "C59",
   "status": "partial",
   "theorems": [
    "Acoular.C59_time_reverse_now",
    "Acoular.C59_filter_bank_violated",
    "Acoular.C59_time_reverse_violated",
    "Acoular.C152_keep_violated",
    "Acoular.C59_rfft_now",
    "Acoular.C59_rfft_violated",
    "Acoular.C59_buffer_now",
    "Acoular.C59_buffer_violated"
   ],
   "note": "Violated by TimeReverse, FilterBank, MaskedTimeOut, simulated sources (C152_simulated_violated), RFFT and SamplesBuffer (hence IRFFT with other block sizes than that of the spectra); for Mixer see C13_mixer_partial (third conjunct); for chains see C152."
  },
  {
   "property": "C60",
   "status": "partial",
   "theorems": [
    "Acoular.C60_index_histories_partial",
    "Acoular.C60_freq_change_partial",
    "Acoular.C60_stale_violated",
    "Acoular.C60_read_matters_violated"
   ],
   "note": "Stale values for histories that switch between the two ways of setting."
  },
  {
   "property": "C61",
   "status": "partial",
   "theorems": [
    "Acoular.C61_power",
    "Acoular.C61_psd_violated",
    "Acoular.C61_psd_partial"
   ],
   "note": "Power proved; the density is wrong by sample_freq^2."
  },
  {
   "property": "C62",
   "status": "proved",
   "theorems": [
    "Acoular.C62_gamma_one",
    "Acoular.C62_antitone",
    "Acoular.C62_le_conventional"
   ],
   "note": ""
  },
  {
   "property": "C63",
   "status": "proved",
   "theorems": [
    "Acoular.C63_capon_general",
    "Acoular.C63_capon_le",
    "Acoular.C63_inverse_violated"
   ],
   "note": ""
  },
  {
   "property": "C64",
   "status": "partial",
   "theorems": [
    "Acoular.C64_lines_independent_partial",
    "Acoular.C64_silent_line_violated"
   ],
   "note": "False of the code if a line is silent."
  },
  {
   "property": "C65",
   "status": "proved",
   "theorems": [
    "Acoular.C65_music"
   ],
   "note": ""
  },
  {
   "property": "C66",
   "status": "proved",
   "theorems": [
    "Acoular.C66_orth_sum",
    "Acoular.C66_orth_n"
   ],
   "note": ""
  },
  {
   "property": "C67",
   "status": "partial",
   "theorems": [
    "Acoular.C67_pos_current_partial",
    "Acoular.C67_stale_z_violated"
   ],
   "note": "False of the code for z."
  },
  {
   "property": "C68",
   "status": "partial",
   "theorems": [
    "Acoular.C68_integrate_spectrum_partial",
    "Acoular.C68_default_limits_partial",
    "Acoular.C68_frange_partial",
    "Acoular.C68_bands",
    "Acoular.C68_first_call_violated",
    "Acoular.C68_frange_first_call_violated",
    "Acoular.C68_upper_limit_violated",
    "Acoular.C68_beyond_violated"
   ],
   "note": "Bands proved. False of the code: without bands the first call of a fresh object returns nothing, and the line at the upper limit of frange is left out; an ind_high beyond the last line, fine for the frequency data, is an IndexError."
  },
  {
   "property": "C69",
   "status": "partial",
   "theorems": [
    "Acoular.C69_center",
    "Acoular.C69_aperture",
    "Acoular.C69_origin_violated"
   ],
   "note": "None if every microphone is in the origin."
  },
  {
   "property": "C70",
   "status": "partial",
   "theorems": [
    "Acoular.C70_reads_inside_partial",
    "Acoular.C70_overrun_violated"
   ],
   "note": "False of the code if the acquisition starts after the arrival of the signal."
  },
  {
   "property": "C71",
   "status": "proved",
   "theorems": [
    "Acoular.C71_seeds"
   ],
   "note": ""
  },
  {
   "property": "C72",
   "status": "proved",
   "theorems": [
    "Acoular.C72_white_sine",
    "Acoular.C72_filtered",
    "Acoular.C72_pink"
   ],
   "note": "int(log(n)/log(2)) is taken as the exact floor of the logarithm."
  },
  {
   "property": "C73",
   "status": "proved",
   "theorems": [
    "Acoular.C73_true_level",
    "Acoular.C73_steer1",
    "Acoular.C73_steer4"
   ],
   "note": ""
  },
  {
   "property": "C74",
   "status": "partial",
   "theorems": [
    "Acoular.C74_weights_violated",
    "Acoular.C74_idempotent_partial"
   ],
   "note": "False of the code: rows shared by neighbouring blocks are weighted repeatedly."
  },
  {
   "property": "C75",
   "status": "partial",
   "theorems": [
    "Acoular.C75_samples_partial",
    "Acoular.C75_constant_delay",
    "Acoular.C75_short_trajectory_violated",
    "Acoular.C75_supersonic_violated"
   ],
   "note": "For motion slower than sound, no weights and trajectories with at least N+num positions; otherwise RuntimeError or reads outside."
  },
  {
   "property": "C76",
   "status": "proved",
   "theorems": [
    "Acoular.C76_cleant",
    "Acoular.C76_gamma"
   ],
   "note": "The update (subtraction and new beamforming) is abstract."
  },
  {
   "property": "C77",
   "status": "partial",
   "theorems": [
    "Acoular.C77_sum_partial",
    "Acoular.C77_block_size_violated"
   ],
   "note": "False of the code in general: the clipping level is that of each block."
  },
  {
   "property": "C78",
   "status": "partial",
   "theorems": [
    "Acoular.C78_increasing",
    "Acoular.C78_dirac",
    "Acoular.C78_rect_partial",
    "Acoular.C78_rect_violated",
    "Acoular.C78_trigger_data"
   ],
   "note": "False of the code for rect: edges in the first block are reported one sample early."
  },
  {
   "property": "C79",
   "status": "partial",
   "theorems": [
    "Acoular.C79_single",
    "Acoular.C79_full_violated",
    "Acoular.C79_block_violated"
   ],
   "note": "True for 'single'; false of the code for 'full' and 'block'."
  },
  {
   "property": "C80",
   "status": "partial",
   "theorems": [
    "Acoular.C80_frequencies_partial",
    "Acoular.C80_hundredths",
    "Acoular.C80_frequencies_violated"
   ],
   "note": "True for frequencies whose names differ; false for frequencies that agree to two decimals."
  },
  {
   "property": "C81",
   "status": "proved",
   "theorems": [
    "Acoular.C81_gradient",
    "Acoular.C81_value",
    "Acoular.C81_not_hermitian_violated"
   ],
   "note": "Derivative along every direction, for all Hermitian matrices; the example shows that the hypothesis is needed."
  },
  {
   "property": "C82",
   "status": "partial",
   "theorems": [
    "Acoular.C82_residual",
    "Acoular.C82_exact",
    "Acoular.C82_recovered",
    "Acoular.C82_recovered_offset_partial",
    "Acoular.C82_offset_violated",
    "Acoular.C82_gradient"
   ],
   "note": "Residual and exactness for all inputs; recovery for every minimiser of the problem without offset. The scikit-learn methods fit an additional offset: recovery only if the system is identifiable with it."
  },
  {
   "property": "C83",
   "status": "partial",
   "theorems": [
    "Acoular.C83_sum_partial",
    "Acoular.C83_row_partial",
    "Acoular.C83_suzuki_all_points",
    "Acoular.C83_support",
    "Acoular.C83_dropped_violated",
    "Acoular.C83_silent_violated",
    "Acoular.C83_index_violated",
    "Acoular.C83_silent_later_violated"
   ],
   "note": "True if all points stay in use, from the eigenvalues and eigenvectors of the cross spectral matrix on (C83_row_partial: modes 120 dB below the strongest are left out). False of the code otherwise: only points of the last processed mode are filled; silent first line and too large m raise."
  },
  {
   "property": "C84",
   "status": "partial",
   "theorems": [
    "Acoular.C84_unit_sklearn",
    "Acoular.C84_unit_nnls",
    "Acoular.C84_unit_lp",
    "Acoular.C84_unit_fista_violated",
    "Acoular.C84_unit_bregman_violated"
   ],
   "note": "True for the scikit-learn methods, NNLS, L-BFGS and the linear program; false for FISTA and Split Bregman."
  },
  {
   "property": "C85",
   "status": "partial",
   "theorems": [
    "Acoular.C85_phase_suzuki",
    "Acoular.C85_phase_irls",
    "Acoular.C85_phase_positive_violated",
    "Acoular.C85_real_system"
   ],
   "note": "Proved for methods 'Suzuki' and 'InverseIRLS'; false for methods with non negative coefficients."
  },
  {
   "property": "C86",
   "status": "partial",
   "theorems": [
    "Acoular.C86_line_partial",
    "Acoular.C86_single_violated"
   ],
   "note": "Proved for two points and more; false of the code for one point."
  },
  {
   "property": "C87",
   "status": "partial",
   "theorems": [
    "Acoular.C87_points",
    "Acoular.C87_size",
    "Acoular.C87_subgrids_length",
    "Acoular.C87_subgrids_violated"
   ],
   "note": "Positions and size proved; the names are false of the code."
  },
  {
   "property": "C88",
   "status": "partial",
   "theorems": [
    "Acoular.C88_border",
    "Acoular.C88_outside_partial",
    "Acoular.C88_first_simplex_violated",
    "Acoular.C88_triangle_violated",
    "Acoular.C88_edge_violated",
    "Acoular.C88_sector_partial",
    "Acoular.C88_sector_outside_partial",
    "Acoular.C88_sector_triangle_violated",
    "Acoular.C88_fallback_violated"
   ],
   "note": "Proved with border (tolerance 0); false of the code without border."
  },
  {
   "property": "C89",
   "status": "partial",
   "theorems": [
    "Acoular.C89_first_partial",
    "Acoular.C89_frozen",
    "Acoular.C89_stale_violated",
    "Acoular.C89_index_violated",
    "Acoular.C89_applied"
   ],
   "note": "True until the filters are first read; false of the code afterwards, they never change again."
  },
  {
   "property": "C90",
   "status": "partial",
   "theorems": [
    "Acoular.C90_edges_partial",
    "Acoular.C90_refused",
    "Acoular.C90_filtfilt_partial",
    "Acoular.C90_filtfilt_violated"
   ],
   "note": "Proved for FiltOctave; for FiltFiltOctave same centre, wider up to order 6, identical from order 7 on (C90_filtfilt_partial); the upper edge may exceed half the sampling frequency near the limit (C90_filtfilt_violated)."
  },
  {
   "property": "C91",
   "status": "proved",
   "theorems": [
    "Acoular.C91_step",
    "Acoular.C91_range"
   ],
   "note": "For all signals, lengths and block sizes."
  },
  {
   "property": "C92",
   "status": "proved",
   "theorems": [
    "Acoular.C92_rotation",
    "Acoular.C92_translation",
    "Acoular.C92_distances",
    "Acoular.C92_undefined"
   ],
   "note": "For all real positions and velocities."
  },
  {
   "property": "C93",
   "status": "partial",
   "theorems": [
    "Acoular.C93_full_blocks_partial",
    "Acoular.C93_block_size_violated",
    "Acoular.C93_offset_violated",
    "Acoular.C93_empty"
   ],
   "note": "Value proved if all blocks are full; otherwise false of the code. Signals with an offset: every sample is found."
  },
  {
   "property": "C94",
   "status": "partial",
   "theorems": [
    "Acoular.C94_scaling_partial",
    "Acoular.C94_real",
    "Acoular.C94_imaginary_violated"
   ],
   "note": "True for real directivities; only the real part is used."
  },
  {
   "property": "C95",
   "status": "proved",
   "theorems": [
    "Acoular.C95_windowed",
    "Acoular.C95_round_trip",
    "Acoular.C95_num_samples"
   ],
   "note": "For all signals and block sizes."
  },
  {
   "property": "C96",
   "status": "partial",
   "theorems": [
    "Acoular.C96_uniform_partial",
    "Acoular.C96_per_revo_violated",
    "Acoular.C96_few_violated",
    "Acoular.C96_end_violated"
   ],
   "note": "Proved for one trigger per revolution; false for more (the fraction of a turn is lost at each window change) and at the end of the data."
  },
  {
   "property": "C97",
   "status": "partial",
   "theorems": [
    "Acoular.C97_average",
    "Acoular.C97_rpm_partial",
    "Acoular.C97_rpm_violated"
   ],
   "note": "Average proved; momentary speed is not divided by the number of triggers per revolution."
  },
  {
   "property": "C98",
   "status": "proved",
   "theorems": [
    "Acoular.C98_constant_rotation"
   ],
   "note": "For every per-row interpolation."
  },
  {
   "property": "C99",
   "status": "partial",
   "theorems": [
    "Acoular.C99_aligned",
    "Acoular.C99_linear",
    "Acoular.C99_bounded",
    "Acoular.C99_identity_partial",
    "Acoular.C99_transformation_violated"
   ],
   "note": "Proved for the linear method; with an orientation matrix the virtual microphones are not transformed."
  },
  {
   "property": "C100",
   "status": "partial",
   "theorems": [
    "Acoular.C100_bounded_partial",
    "Acoular.C100_identity_partial",
    "Acoular.C100_height_violated",
    "Acoular.C100_count_violated"
   ],
   "note": "True for arrays at height zero and equal numbers of microphones; false otherwise."
  },
  {
   "property": "C101",
   "status": "partial",
   "theorems": [
    "Acoular.C101_constant_power_partial",
    "Acoular.C101_single_ring_violated"
   ],
   "note": "Proved for at least two different (rounded) distances; raises for one."
  },
  {
   "property": "C102",
   "status": "partial",
   "theorems": [
    "Acoular.C102_selection_partial",
    "Acoular.C102_lower_violated",
    "Acoular.C102_bars_partial",
    "Acoular.C102_bardata",
    "Acoular.C102_empty_violated",
    "Acoular.C102_centres"
   ],
   "note": "The first returned band is incomplete in general (off by one); error instead of an empty curve when no band fits."
  },
  {
   "property": "C103",
   "status": "partial",
   "theorems": [
    "Acoular.C103_range",
    "Acoular.C103_temperature",
    "Acoular.C103_humidity",
    "Acoular.C103_co2",
    "Acoular.C103_error",
    "Acoular.C103_negative_violated"
   ],
   "note": "All claims for physical arguments proved; negative humidity is not refused (violated)."
  },
  {
   "property": "C104",
   "status": "partial",
   "theorems": [
    "Acoular.C104_distance",
    "Acoular.C104_position",
    "Acoular.C104_refused",
    "Acoular.C104_transfer_partial",
    "Acoular.C104_index",
    "Acoular.C104_zero_violated",
    "Acoular.C104_single_mic_violated"
   ],
   "note": "False for arrays of a single microphone with several grid points and for reference distance zero."
  },
  {
   "property": "C105",
   "status": "partial",
   "theorems": [
    "Acoular.C105_unique",
    "Acoular.C105_accuracy_partial",
    "Acoular.C105_convergence_partial",
    "Acoular.C105_no_convergence_violated"
   ],
   "note": "Uniqueness proved for all subsonic paths; accuracy when the iteration stopped by itself; convergence for small Mach numbers; false at Mach 0.6."
  },
  {
   "property": "C106",
   "status": "partial",
   "theorems": [
    "Acoular.C106_at_rest_partial",
    "Acoular.C106_sign_violated",
    "Acoular.C106_position_violated"
   ],
   "note": "Only true without motion; sign and dependence on the microphone are wrong in the code."
  },
  {
   "property": "C107",
   "status": "partial",
   "theorems": [
    "Acoular.C107_translation",
    "Acoular.C107_at_rest_partial",
    "Acoular.C107_direction_violated",
    "Acoular.C107_length_violated",
    "Acoular.C107_first_mic_violated",
    "Acoular.C107_retardation_violated"
   ],
   "note": "Only without rotation, at rest, and up to the retardation."
  },
  {
   "property": "C108",
   "status": "partial",
   "theorems": [
    "Acoular.C108_time_partial",
    "Acoular.C108_time_violated",
    "Acoular.C108_amplification_partial",
    "Acoular.C108_amplification_violated"
   ],
   "note": "Moving line source is one sample off; only its last monopole is amplified."
  },
  {
   "property": "C109",
   "status": "partial",
   "theorems": [
    "Acoular.C109_position",
    "Acoular.C109_slowness_iff",
    "Acoular.C109_rotating_partial",
    "Acoular.C109_uniform",
    "Acoular.C109_scale",
    "Acoular.C109_start",
    "Acoular.C109_conserved_partial",
    "Acoular.C109_jet_violated"
   ],
   "note": "Right for uniform and rotating flows; wrong in the shear layers of jets."
  },
  {
   "property": "C110",
   "status": "proved",
   "theorems": [
    "Acoular.C110_level",
    "Acoular.C110_order",
    "Acoular.C110_round_trip",
    "Acoular.C110_gain"
   ],
   "note": ""
  },
  {
   "property": "C111",
   "status": "partial",
   "theorems": [
    "Acoular.C111_azimuth_range",
    "Acoular.C111_azimuth",
    "Acoular.C111_elevation",
    "Acoular.C111_translation",
    "Acoular.C111_scale",
    "Acoular.C111_rotation_partial",
    "Acoular.C111_elevation_violated",
    "Acoular.C111_documented_example",
    "Acoular.C111_rotation_violated"
   ],
   "note": "Holds for rotations about the y axis only; the range of the elevation is not kept."
  },
  {
   "property": "C112",
   "status": "partial",
   "theorems": [
    "Acoular.C112_axis",
    "Acoular.C112_columns",
    "Acoular.C112_modes",
    "Acoular.C112_real",
    "Acoular.C112_rotation_violated"
   ],
   "note": "Not invariant under rotations about other axes than y."
  },
  {
   "property": "C113",
   "status": "partial",
   "theorems": [
    "Acoular.C113_analog",
    "Acoular.C113_response_partial",
    "Acoular.C113_stable",
    "Acoular.C113_offset",
    "Acoular.C113_reference",
    "Acoular.C113_response_violated"
   ],
   "note": "The gain is that of the standard at a warped frequency; zero at half the sampling frequency."
  },
  {
   "property": "C114",
   "status": "partial",
   "theorems": [
    "Acoular.C114_channel",
    "Acoular.C114_convolution_partial",
    "Acoular.C114_errors",
    "Acoular.C114_single_kernel_violated",
    "Acoular.C114_num_samples_violated"
   ],
   "note": "Holds for one impulse response per microphone, not longer than a block; the declared number of samples is wrong."
  },
  {
   "property": "C115",
   "status": "partial",
   "theorems": [
    "Acoular.C115_integral_partial",
    "Acoular.C115_complement",
    "Acoular.C115_no_sector",
    "Acoular.C115_first_use_violated",
    "Acoular.C115_uncalculated_violated",
    "Acoular.C115_stale_violated",
    "Acoular.C115_resized_violated"
   ],
   "note": "Holds once the current map has been calculated; otherwise the sector is applied to old or missing positions."
  },
  {
   "property": "C116",
   "status": "partial",
   "theorems": [
    "Acoular.C116_band_partial",
    "Acoular.C116_line_partial",
    "Acoular.C116_power_partial",
    "Acoular.C116_ascending",
    "Acoular.C116_empty_band_violated",
    "Acoular.C116_beyond_violated"
   ],
   "note": "Holds for bands with at least one line and frequencies in the analysed range."
  },
  {
   "property": "C117",
   "status": "proved",
   "theorems": [
    "Acoular.C117_map",
    "Acoular.C117_phase",
    "Acoular.C117_psf",
    "Acoular.C117_derived"
   ],
   "note": ""
  },
  {
   "property": "C118",
   "status": "partial",
   "theorems": [
    "Acoular.C118_bounds",
    "Acoular.C118_map_partial",
    "Acoular.C118_reference_violated",
    "Acoular.C118_derived_violated"
   ],
   "note": "Holds for steering vectors of the class itself with the reference at the origin."
  },
  {
   "property": "C119",
   "status": "partial",
   "theorems": [
    "Acoular.C119_shape_change_partial",
    "Acoular.C119_masked_window_partial",
    "Acoular.C119_same_shape_violated",
    "Acoular.C119_masked_violated",
    "Acoular.C119_masked_remedy"
   ],
   "note": "Holds if the shape changes (plain source) or the samples stay (masked source); otherwise old results are returned."
  },
  {
   "property": "C120",
   "status": "proved",
   "theorems": [
    "Acoular.C120_axis",
    "Acoular.C120_axis_used",
    "Acoular.C120_block_size",
    "Acoular.C120_irfft_accepts",
    "Acoular.C120_tone",
    "Acoular.C120_constant",
    "Acoular.C120_csm_tone"
   ],
   "note": "Tones: without window function, lines other than the first and the last."
  },
  {
   "property": "C121",
   "status": "partial",
   "theorems": [
    "Acoular.C121_weighted",
    "Acoular.C121_power",
    "Acoular.C121_power_partial",
    "Acoular.C121_offset_violated"
   ],
   "note": "Holds for signals without offset and without component at half the sampling frequency in the blocks; the exact excess is proved otherwise."
  },
  {
   "property": "C122",
   "status": "partial",
   "theorems": [
    "Acoular.C122_map",
    "Acoular.C122_level",
    "Acoular.C122_location",
    "Acoular.C122_level_diag",
    "Acoular.C122_level_diag_violated"
   ],
   "note": "Holds, except that removing the diagonal keeps the level for the formulation 'inverse' only. Lines other than first and last, no window function (those: C143)."
  },
  {
   "property": "C123",
   "status": "partial",
   "theorems": [
    "Acoular.C123_ridge_partial",
    "Acoular.C123_whole_partial",
    "Acoular.C123_epsilon_violated",
    "Acoular.C123_minimum_violated"
   ],
   "note": "The amplitudes solve the ridge problem with the whole number part of the regularisation parameter; false of the code for other values (below 1: no regularisation at all)."
  },
  {
   "property": "C124",
   "status": "partial",
   "theorems": [
    "Acoular.C124_point_partial",
    "Acoular.C124_moving_partial",
    "Acoular.C124_moving_dipole_partial",
    "Acoular.C124_line_partial",
    "Acoular.C124_moving_violated",
    "Acoular.C124_moving_dipole_violated",
    "Acoular.C124_line_violated"
   ],
   "note": "Proved for point sources; false of the code for the other classes, whose identifiers forget a setting."
  },
  {
   "property": "C125",
   "status": "partial",
   "theorems": [
    "Acoular.C125_failures",
    "Acoular.C125_chain_partial",
    "Acoular.C125_block_size_partial",
    "Acoular.C125_announced_partial",
    "Acoular.C125_means_unique",
    "Acoular.C125_average_violated",
    "Acoular.C125_mixer_violated"
   ],
   "note": "Proved for all trees except selection of samples or zero phase filters behind an average (TypeError for all settings) and mixers with sources of different length (announced number wrong). Blocks are values here; shared arrays are treated in C152, whose exceptions apply to the code in addition."
  },
  {
   "property": "C126",
   "status": "partial",
   "theorems": [
    "Acoular.C126_cross_partial",
    "Acoular.C126_cross_equal_partial",
    "Acoular.C126_auto_partial",
    "Acoular.C126_cross_violated",
    "Acoular.C126_energy_violated"
   ],
   "note": "Holds for scaling 'none' if the overlap factor times the number of samples is a multiple of the block size; differs otherwise."
  },
  {
   "property": "C127",
   "status": "partial",
   "theorems": [
    "Acoular.C127_row_partial",
    "Acoular.C127_gridless_partial",
    "Acoular.C127_inverse_form",
    "Acoular.C127_gridless_violated",
    "Acoular.C127_inverse_identifier_violated"
   ],
   "note": "Proved for the twelve classes with a grid; false of the code for gridless orthogonal beamforming, whose identifier forgets n; the identifier of inverse methods depends on the history of steer_type."
  },
  {
   "property": "C128",
   "status": "partial",
   "theorems": [
    "Acoular.C128_map",
    "Acoular.C128_damas_fixed",
    "Acoular.C128_damas_partial",
    "Acoular.C128_damas_level",
    "Acoular.C128_damas_uncalibrated",
    "Acoular.C128_clean_partial",
    "Acoular.C128_clean_several_partial",
    "Acoular.C128_classic_violated",
    "Acoular.C128_rdiag_violated",
    "Acoular.C128_damas_inverse_violated"
   ],
   "note": "Proved without diagonal removal: the map for all sources; DAMAS for the formulation 'true level' whenever the matrix determines the powers, with a rate for 'inverse' and 'true level' and well separated sources; CLEAN for one source (closed form) and for several sources whose point spread functions overlap little. False of the code for DAMAS with the formulation 'inverse' and strong overlap; with diagonal removal and with the classic formulation."
  },
  {
   "property": "C129",
   "status": "partial",
   "theorems": [
    "Acoular.C129_fixed_point",
    "Acoular.C129_no_fixed_point",
    "Acoular.C129_rdiag_partial",
    "Acoular.C129_full",
    "Acoular.C129_overestimated_violated"
   ],
   "note": "Proved with diagonal removal for sources at equal distance from the microphones (closed form) and, for all sources, as a fixed point; false of the code without diagonal removal."
  },
  {
   "property": "C130",
   "status": "partial",
   "theorems": [
    "Acoular.C130_exact_partial",
    "Acoular.C130_short",
    "Acoular.C130_short_violated",
    "Acoular.C130_long",
    "Acoular.C130_long_rows"
   ],
   "note": "Proved for sources that deliver what they announce; false of the code for sources that deliver less, for example a mixer with a shorter source."
  },
  {
   "property": "C131",
   "status": "partial",
   "theorems": [
    "Acoular.C131_save_partial",
    "Acoular.C131_interrupted_partial",
    "Acoular.C131_load_partial",
    "Acoular.C131_same_file_violated",
    "Acoular.C131_missing",
    "Acoular.C131_unicode_violated",
    "Acoular.C131_slash_violated",
    "Acoular.C131_slash_group_violated",
    "Acoular.C131_name_violated"
   ],
   "note": "Proved for metadata with plain keys and ASCII strings and for names of files that differ from the present one; false of the code otherwise."
  },
  {
   "property": "C132",
   "status": "partial",
   "theorems": [
    "Acoular.C132_tracker_violated",
    "Acoular.C132_tracked_partial",
    "Acoular.C132_short_violated",
    "Acoular.C132_long_violated",
    "Acoular.C132_still"
   ],
   "note": "False of the code for every AngleTracker (TypeError); proved for objects whose angle is a method with as many entries as there are samples."
  },
  {
   "property": "C133",
   "status": "partial",
   "theorems": [
    "Acoular.C133_rows_partial",
    "Acoular.C133_monopole",
    "Acoular.C133_delay_violated",
    "Acoular.C133_direction_violated"
   ],
   "note": "Proved up to a shift of pi/30 samples of the signal that the code adds; false of the code: the timing of a point source, and the identifier (direction is missing)."
  },
  {
   "property": "C134",
   "status": "partial",
   "theorems": [
    "Acoular.C134_point_partial",
    "Acoular.C134_rows",
    "Acoular.C134_start_violated",
    "Acoular.C134_origin_violated",
    "Acoular.C134_line",
    "Acoular.C134_line_violated",
    "Acoular.C134_identifier_violated"
   ],
   "note": "Proved for point sources outside the origin with start = 0; for other start times and for line sources the difference is determined exactly."
  },
  {
   "property": "C135",
   "status": "partial",
   "theorems": [
    "Acoular.C135_shared_partial",
    "Acoular.C135_identifier_partial",
    "Acoular.C135_exchange_violated",
    "Acoular.C135_masked_violated",
    "Acoular.C04_one_run"
   ],
   "note": "Proved for families of objects whose settings, printed without separation, are told apart and whose texts do not collide under the hash; false of the code otherwise (MaskedTimeOut with 1:123 and 11:23). Runs of different caches are not interleaved."
  },
  {
   "property": "C136",
   "status": "partial",
   "theorems": [
    "Acoular.C136_csm",
    "Acoular.C136_hermitian",
    "Acoular.C136_history",
    "Acoular.C136_samples",
    "Acoular.C136_lines",
    "Acoular.C136_identifier_partial",
    "Acoular.C136_assign_violated",
    "Acoular.C136_same_name_violated"
   ],
   "note": "Matrix read = matrix computed, for both signs, and history. False of the code: a matrix assigned to csm is ignored, and files of the same name in different directories share the identifier."
  },
  {
   "property": "C137",
   "status": "partial",
   "theorems": [
    "Acoular.C137_begin",
    "Acoular.C137_once",
    "Acoular.C137_conserved",
    "Acoular.C137_no_crash",
    "Acoular.C137_overflow",
    "Acoular.C137_order_partial",
    "Acoular.C137_complete_partial",
    "Acoular.C137_order_violated",
    "Acoular.C137_last_block_violated",
    "Acoular.C137_two_sources_violated",
    "Acoular.C137_crash_violated",
    "Acoular.C137_silent_loss_violated"
   ],
   "note": "No duplicates and conservation for all interleavings; order only if blocks are not fetched during the distribution of another. False of the code otherwise: wrong order, last block missing, two source generators, unreported loss."
  },
  {
   "property": "C138",
   "status": "partial",
   "theorems": [
    "Acoular.C138_shared_partial",
    "Acoular.C138_no_blocking",
    "Acoular.C138_exclusion_violated",
    "Acoular.C138_raises_violated"
   ],
   "note": "Proved if no thread tests the flag between another one's test and setting; false of the code otherwise."
  },
  {
   "property": "C139",
   "status": "partial",
   "theorems": [
    "Acoular.C139_blocks",
    "Acoular.C139_file",
    "Acoular.C139_readers",
    "Acoular.C139_one_writer",
    "Acoular.C139_pair_violated",
    "Acoular.C139_overtaken_violated",
    "Acoular.C139_overwrite_violated"
   ],
   "note": "Proved in full for h5py; with PyTables blocks and file are right for all schedules, but a generator whose node is replaced by another one fails (also when two branches read in turn); no failure with readers only or a single writer."
  },
  {
   "property": "C140",
   "status": "partial",
   "theorems": [
    "Acoular.C140_subsequence",
    "Acoular.C140_watched",
    "Acoular.C140_keeps_up",
    "Acoular.C140_joined",
    "Acoular.C140_started",
    "Acoular.C140_no_keyerror",
    "Acoular.C140_remove_violated",
    "Acoular.C140_join_violated"
   ],
   "note": "Proved if no generator is running that began before the registration, or as long as the object keeps up, and for removals of objects nobody inspects; false of the code otherwise."
  },
  {
   "property": "C141",
   "status": "partial",
   "theorems": [
    "Acoular.C141_base",
    "Acoular.C141_functional",
    "Acoular.C141_functional_inverse_violated",
    "Acoular.C141_eig",
    "Acoular.C141_orth",
    "Acoular.C141_capon",
    "Acoular.C141_capon_level_violated"
   ],
   "note": "Exact values for the conventional, functional, eigenvalue, orthogonal and Capon beamformers; location of the maximum for the formulations for which it is guaranteed. False of the code: the level of Capon with 'true level'; the level of the functional beamformer with 'inverse' if the distances to the microphones differ. MUSIC divides zero by zero at the source in exact arithmetic and is left out."
  },
  {
   "property": "C142",
   "status": "partial",
   "theorems": [
    "Acoular.C142_current_partial",
    "Acoular.C142_held_partial",
    "Acoular.C142_available",
    "Acoular.C142_held_violated",
    "Acoular.C142_overwrite_violated"
   ],
   "note": "Proved for every history in which results kept by the user are not used after a change of settings; false of the code otherwise (wrong lines stored in the cache file under the old identifier). With PyTables and the mode 'overwrite' objects with equal settings disturb each other."
  },
  {
   "property": "C143",
   "status": "partial",
   "theorems": [
    "Acoular.C143_amplitude",
    "Acoular.C143_csm",
    "Acoular.C143_map",
    "Acoular.C143_gain_le",
    "Acoular.C143_gain_eq_one_iff",
    "Acoular.C143_symmetric",
    "Acoular.C143_shape",
    "Acoular.C143_sum_pos",
    "Acoular.C143_quarter",
    "Acoular.C143_hanning_gain",
    "Acoular.C143_level_violated"
   ],
   "note": "Exact formulas for every window. False of the code for all windows except the rectangular one: the cross spectral matrix is scaled for the mean square of noise, a tone loses the factor (sum w)^2 / (n sum w^2), for Hanning 2(n-1)/(3n); the amplitude spectrum has the amplitude up to the leakage of the negative frequency. Matrix and map for lines at which this leakage vanishes."
  },
  {
   "property": "C144",
   "status": "partial",
   "theorems": [
    "Acoular.C144_nnls",
    "Acoular.C144_lp_most_partial",
    "Acoular.C144_lp_partial",
    "Acoular.C144_lp_violated"
   ],
   "note": "NNLS proved for the formulation 'true level' whenever the matrix determines the powers. The linear program weights with the row sums instead of the column sums of the point spread functions: right for symmetric ones, false of the code otherwise."
  },
  {
   "property": "C145",
   "status": "partial",
   "theorems": [
    "Acoular.C145_reach",
    "Acoular.C145_points",
    "Acoular.C145_ends",
    "Acoular.C145_covered",
    "Acoular.C145_bounds",
    "Acoular.C145_on_rays",
    "Acoular.C145_uniform",
    "Acoular.C145_hull_exists",
    "Acoular.C145_cone_violated"
   ],
   "note": "A distance for every point whenever tracing ended early, with bounds and accuracy. False of the code otherwise: points outside of the cone of the solid angle get nan, however many rays are used, without an error."
  },
  {
   "property": "C146",
   "status": "partial",
   "theorems": [
    "Acoular.C146_settings_partial",
    "Acoular.C146_coordinates",
    "Acoular.C146_virtual_violated",
    "Acoular.C146_default_violated"
   ],
   "note": "Holds if the geometry is set before the first use. False of the code otherwise: the coordinates of the first interpolated row are kept for ever."
  },
  {
   "property": "C147",
   "status": "partial",
   "theorems": [
    "Acoular.C147_method_partial",
    "Acoular.C147_custom",
    "Acoular.C147_zero_violated"
   ],
   "note": "Proved for the combinations with a branch and for the dimension 'custom'; all others silently give zeros."
  },
  {
   "property": "C148",
   "status": "partial",
   "theorems": [
    "Acoular.C148_range_partial",
    "Acoular.C148_aligned_partial",
    "Acoular.C148_origin",
    "Acoular.C148_outside_violated",
    "Acoular.C148_mesh_exists",
    "Acoular.C148_array_exists"
   ],
   "note": "Proved for virtual microphones between the least and the greatest radius of the array; zero outside. Alignment not proved for microphones exactly at the angle pi."
  },
  {
   "property": "C149",
   "status": "partial",
   "theorems": [
    "Acoular.C149_poles_partial",
    "Acoular.C149_perpendicular",
    "Acoular.C149_reverse",
    "Acoular.C149_far_partial",
    "Acoular.C149_rows",
    "Acoular.C149_field",
    "Acoular.C149_far_violated",
    "Acoular.C149_spike_violated"
   ],
   "note": "The symmetry properties are proved; the far field is missing or far too large, since the delays of both poles are rounded to samples."
  },
  {
   "property": "C150",
   "status": "partial",
   "theorems": [
    "Acoular.C150_values",
    "Acoular.C150_switch_partial",
    "Acoular.C150_readonly",
    "Acoular.C150_stored",
    "Acoular.C150_switch_violated"
   ],
   "note": "A file that was opened in the mode readonly cannot be written to later in the same process; requests in writing modes fail."
  },
  {
   "property": "C151",
   "status": "partial",
   "theorems": [
    "Acoular.C151_exact",
    "Acoular.C151_converged",
    "Acoular.C151_norm_partial",
    "Acoular.C151_runs_partial",
    "Acoular.C151_norm_violated",
    "Acoular.C151_channels_violated",
    "Acoular.C151_zero_violated"
   ],
   "note": "The eigenmode is explained exactly by every iterate; for pnorm = 2 the sum of squares is least; a fixed point is least for the exponent 4 - pnorm. False for pnorm = 1 (cycle of two results, neither least), for more channels than points (AttributeError) and after an amplitude became exactly zero."
  },
  {
   "property": "C152",
   "status": "partial",
   "theorems": [
    "Acoular.C152_chain_partial",
    "Acoular.C152_again_partial",
    "Acoular.C152_overwrite_partial",
    "Acoular.C152_keep_partial",
    "Acoular.C152_source_mixer_partial",
    "Acoular.C152_reverse_violated",
    "Acoular.C152_mixer_violated",
    "Acoular.C152_mixer_reverse_violated",
    "Acoular.C152_mask_violated",
    "Acoular.C152_overwrite_violated",
    "Acoular.C152_keep_violated",
    "Acoular.C152_simulated_violated",
    "Acoular.C152_source_mixer_violated"
   ],
   "note": "Proved for all trees in which TimeReverse follows objects that do not overwrite their blocks and the first source of Mixer or SourceMixer hands out blocks nobody looks at later. False otherwise: TimeReverse behind a trimmed MaskedTimeOut or a simulated source, Mixer behind TimeCumAverage, Mixer of a recording with its reversal (also changes the recorded data), SourceMixer of a recording."
  },
  {
   "property": "C153",
   "status": "partial",
   "theorems": [
    "Acoular.C153_consumers_partial",
    "Acoular.C153_in_step_partial",
    "Acoular.C153_mask_violated",
    "Acoular.C153_mixer_violated",
    "Acoular.C153_simulated_violated"
   ],
   "note": "Proved if the source does not overwrite its blocks, or if the consumers take turns, and if no consumer changes blocks. False otherwise: with MaskedTimeOut or a simulated source as source an object that is behind gets later blocks instead of its own; an object that changes blocks in place (Mixer) changes what others get."
  },
  {
   "property": "C154",
   "status": "partial",
   "theorems": [
    "Acoular.C154_recursion",
    "Acoular.C154_symmetric_partial",
    "Acoular.C154_early_violated",
    "Acoular.C154_feedback_violated"
   ],
   "note": "The recursion holds for all coefficients (for any sections that tf2sos may return according to its documentation); the delay is compensated for an odd number of symmetric moving average coefficients. False otherwise: half the number of moving average coefficients is taken for the delay, so trailing zeros make the noise come early, and feedback is not compensated."
  },
  {
   "property": "C155",
   "status": "proved",
   "theorems": [
    "Acoular.C155_mixture",
    "Acoular.C155_scale",
    "Acoular.C155_calib",
    "Acoular.C155_channels",
    "Acoular.C155_transfer",
    "Acoular.C155_filters",
    "Acoular.C155_limits"
   ],
   "note": "Exact arithmetic. For networks with a meaning in the sense of C125 (e.g. no selection of samples directly behind an average, which raises); scipy's sosfiltfilt is taken to be linear. Equality of all blocks, for every block size. C155_limits: TimePower is not additive, and selection, average and reversal do not commute with filters."
  },
  {
   "property": "C156",
   "status": "partial",
   "theorems": [
    "Acoular.C156_map",
    "Acoular.C156_sources",
    "Acoular.C156_single",
    "Acoular.C156_noiseless_violated"
   ],
   "note": "Exact arithmetic; eigh is any routine that returns an orthonormal eigenbasis with ascending eigenvalues. C156_map: formula of the map wherever the distance is not zero; C156_sources: zeros of the response of the noise subspace, for the number of sources not taken too small; C156_single: one source, closed form with the coherence. Where the response is zero the code divides 0 by 0 (floating point rounding decides what is shown), so the statements on peaks are made for the response. C156_noiseless_violated: without noise the response is zero at every grid point, since the eigenvalues of the noise subspace, all zero, are used as factors."
  },
  {
   "property": "C157",
   "status": "partial",
   "theorems": [
    "Acoular.C157_similar",
    "Acoular.C157_motion",
    "Acoular.C157_reference",
    "Acoular.C157_default_reference_violated",
    "Acoular.C157_gridless_partial",
    "Acoular.C157_gridless_violated"
   ],
   "note": "Exact arithmetic, medium at rest. C157_similar and C157_motion: all twelve classes with a grid (solvers of other packages are functions of what they are given, and are given the same). C157_default_reference_violated: the reference is the origin unless set, so moving only array and grid changes the level of 'true level'. C157_gridless_partial: BeamformerGridlessOrth with 'classic' and 'true location', translations. C157_gridless_violated: with 'inverse' it measures the reference distance from the origin, whatever steer.ref is, so even moving the reference along changes the position found."
  },
  {
   "property": "C158",
   "status": "proved",
   "theorems": [
    "Acoular.C158_linear",
    "Acoular.C158_eigenvalues",
    "Acoular.C158_music",
    "Acoular.C158_csm",
    "Acoular.C158_level",
    "Acoular.C158_inverse",
    "Acoular.C158_solvers",
    "Acoular.C158_penalty"
   ],
   "note": "Exact arithmetic. C158_linear: conventional, DAMAS, CLEAN, CLEAN-SC for all settings, Capon for a regular matrix. C158_eigenvalues and C158_music: the routine may choose other eigenvectors for the louder matrix; the eigenvalues in question occur once (MUSIC: those used are smaller than the others; functional: not negative). C158_penalty: with the same penalty the result is not proportional (three times for twice the data)."
  },
  {
   "property": "C159",
   "status": "partial",
   "theorems": [
    "Acoular.C159_channels",
    "Acoular.C159_eigenvalues",
    "Acoular.C159_grid",
    "Acoular.C159_orth",
    "Acoular.C159_damas_violated"
   ],
   "note": "Exact arithmetic. Channels: C159_channels for all settings, C159_eigenvalues if the eigenvalues used occur once (functional: always; MUSIC: those used are smaller than the others). CMF, GIB not stated. Grid points: C159_grid for conventional, functional, Capon, eigenvalue, MUSIC; C159_orth if every map has one maximum. C159_damas_violated: DAMAS works through the grid in its order, so after a finite number of iterations the result depends on the order, even for a symmetric arrangement. CLEAN and CLEAN-SC under reordering of the grid not stated (first of several maxima)."
  },
  {
   "property": "C160",
   "status": "partial",
   "theorems": [
    "Acoular.C160_subtract",
    "Acoular.C160_louder",
    "Acoular.C160_source",
    "Acoular.C160_blocks",
    "Acoular.C160_rest",
    "Acoular.C160_auto_violated",
    "Acoular.C160_weights_violated",
    "Acoular.C160_end_violated",
    "Acoular.C160_negative_violated",
    "Acoular.C160_block_size_violated"
   ],
   "note": "Exact arithmetic. C160_subtract: what an iteration takes away, for all delays (the first and last values are held for one sample). C160_source: single source with delays of full samples, whole signal inside the block. C160_rest: the variants for moving grids agree with the others for a grid at rest. Violated: with r_diag, only the auto power of the last iteration is removed, so almost nothing after some iterations (C160_auto_violated), and powers may be negative (C160_negative_violated); spatial weights are not applied to what is taken away (C160_weights_violated); if num divides the number of samples to deliver, ValueError at the end where BeamformerTime ends normally (C160_end_violated); the result depends on the block size and shows sources where there are none (C160_block_size_violated)."
  },
  {
   "property": "C161",
   "status": "partial",
   "theorems": [
    "Acoular.C161_sideways_partial",
    "Acoular.C161_simulation_partial",
    "Acoular.C161_sign_violated",
    "Acoular.C161_rest_violated",
    "Acoular.C161_level_violated",
    "Acoular.C161_simulation_violated",
    "Acoular.C161_rotation_violated"
   ],
   "note": "False of the code: the vector from the microphone to the focus point is used, so that the factor is that of the reversed motion, (1 + M)^2 (C161_sign_violated), and the level of a source that approaches the array is wrong by ((1 + M)/(1 - M))^2 (C161_level_violated). At rest the values are not numbers (C161_rest_violated). MovingPointSource fits for a microphone in the origin only (C161_simulation_*). A rotating grid is treated as if all its points had the velocity of the trajectory (C161_rotation_violated)."
  },
  {
   "property": "C162",
   "status": "partial",
   "theorems": [
    "Acoular.C162_moving_partial",
    "Acoular.C162_rest_partial",
    "Acoular.C162_reference_partial",
    "Acoular.C162_position_violated",
    "Acoular.C162_level_violated",
    "Acoular.C162_zero_violated",
    "Acoular.C162_conv_violated"
   ],
   "note": "Proved for reference distances without rotation, weights and convective amplification (rest: one sample more than BeamformerTime). False of the code: reference positions are ignored (C162_position_violated, C162_level_violated); the reference distance zero works on moving grids only (C162_zero_violated); with convective amplification a resting grid gives no numbers (C162_conv_violated)."
  },
  {
   "property": "C163",
   "status": "partial",
   "theorems": [
    "Acoular.C163_columns_partial",
    "Acoular.C163_axis_partial",
    "Acoular.C163_inverse_partial",
    "Acoular.C163_calib_partial",
    "Acoular.C163_columns_violated",
    "Acoular.C163_axis_violated",
    "Acoular.C163_inverse_violated",
    "Acoular.C163_power_violated",
    "Acoular.C163_buffer_violated",
    "Acoular.C163_invalid_violated"
   ],
   "note": "Proved: columns and check of the calibration factors for all chains in which time blocks stand behind time signals; axis and block size for RFFT and power spectra directly behind it. False of the code: InOut delegates neither freqs nor block_size, so behind Average, Cache and Calib freqs is empty and block_size 0 (C163_axis_violated), IRFFT raises ValueError (C163_inverse_violated) and the power spectra divide by zero (C163_power_violated). InOut objects are SamplesGenerators, so time blocks accept spectra and announce too few columns (C163_columns_violated). SamplesBuffer refuses spectra (C163_buffer_violated). invalid_channels of Calib leaves out single columns of spectra (C163_invalid_violated)."
  },
  {
   "property": "C164",
   "status": "proved",
   "theorems": [
    "Acoular.C164_transform",
    "Acoular.C164_csm",
    "Acoular.C164_auto",
    "Acoular.C164_cross"
   ],
   "note": "Signals of at least one block (C164_transform); no invalid channels. Real numbers instead of floating point numbers. That the power spectra behind calibrated spectra cannot be computed by the library is C163_power_violated."
  },
  {
   "property": "C165",
   "status": "partial",
   "theorems": [
    "Acoular.C165_subset",
    "Acoular.C165_meaning",
    "Acoular.C165_refused_partial",
    "Acoular.C165_none_left",
    "Acoular.C165_mismatch_violated",
    "Acoular.C165_time_violated",
    "Acoular.C165_time_shift_violated"
   ],
   "note": "The first half is proved: the same list on both sides gives the result of the smaller array, for all 13 classes modelled, and the result is the one of the averaged cross spectral matrix with channel m at microphone m. The second half is false. The check in BeamformerBase compares numbers only: different numbers are refused, but two lists of the same length that exclude different channels are accepted and the signal of one microphone is taken at the place of another (worked example with values). The time domain beamformers do not compare anything: with more channels than microphones they take the first channels of the source. All microphones excluded is IndexError. Medium at rest, no calibration, no result cache; a time domain source with fewer channels than microphones (reads outside the array in compiled code) is not modelled."
  },
  {
   "property": "C166",
   "status": "partial",
   "theorems": [
    "Acoular.C166_positions",
    "Acoular.C166_factors",
    "Acoular.C166_incomplete",
    "Acoular.C166_current_partial",
    "Acoular.C166_missing",
    "Acoular.C166_unreadable_violated",
    "Acoular.C166_reassign_violated",
    "Acoular.C166_names_violated",
    "Acoular.C166_subgrids_violated"
   ],
   "note": "Proved: what a complete file gives, that an incomplete one is an error, and that after any history the assignment of another readable file gives the content of that file. False: the import runs in a change handler whose exceptions are logged and not raised, so an unreadable file leaves the old content under the new name; assigning the same name again does not read a changed file; names are not compared, factors are applied by position in the file; positions assigned to an ImportGrid leave the names of the subgrids. How the package traits treats exceptions of handlers and equal values, and how minidom and float treat text, are assumptions of the model."
  },
  {
   "property": "C167",
   "status": "partial",
   "theorems": [
    "Acoular.C167_list",
    "Acoular.C167_list_gridless",
    "Acoular.C167_number_partial",
    "Acoular.C167_fresh",
    "Acoular.C167_none",
    "Acoular.C167_refused",
    "Acoular.C167_restored_violated",
    "Acoular.C167_twice_violated",
    "Acoular.C167_wrap_violated"
   ],
   "note": "Proved: a list assigned last is used in both classes, a new value of n selects the n largest, the defaults, n <= 0, and the refusal of components that do not exist by BeamformerOrth. False: assigning n the value it already has after eva_list was set changes nothing, so eva_list=[-1,-2] followed by n=1 considers two components; BeamformerOrth counts a component twice that is named from both ends; BeamformerGridlessOrth takes numbers modulo the number of microphones and so accepts components that do not exist. That traits calls handlers only for new values is an assumption of the model; the slots of the gridless class are the subject of C46."
  },
  {
   "property": "C168",
   "status": "partial",
   "theorems": [
    "Acoular.C168_detour",
    "Acoular.C168_straight",
    "Acoular.C168_reversed",
    "Acoular.C168_reversed_table",
    "Acoular.C168_velocity",
    "Acoular.C168_there_and_back",
    "Acoular.C168_number_partial",
    "Acoular.C168_coincident_violated",
    "Acoular.C168_direction_violated",
    "Acoular.C168_supersonic_violated"
   ],
   "note": "The relations are proved for subsonic flow (reciprocity and dependence on the velocity for all). Not a number although accepted: a point that coincides with a microphone or, for the reference distance, with the origin, even at Mach number 0 where Environment gives 0; a direction of length zero; supersonic flow outside the cone. Real arithmetic; NaN and infinity are not distinguished."
  },
  {
   "property": "C169",
   "status": "partial",
   "theorems": [
    "Acoular.C169_refused",
    "Acoular.C169_meaning",
    "Acoular.C169_perfect",
    "Acoular.C169_gain",
    "Acoular.C169_sum",
    "Acoular.C169_inverse_partial",
    "Acoular.C169_overlap_violated"
   ],
   "note": "Proved with multi_assignment=True, the default, except the sign of the inverse error: it is not positive for sectors without common points, but with common points it can be positive (+3 dB for one source between two targets). multi_assignment=False overwrites the data (C50); which points a sector has is C88, the radii are C51. Gain for levels above the floor of L_p (-350 dB)."
  },
  {
   "property": "C170",
   "status": "partial",
   "theorems": [
    "Acoular.C170_recording",
    "Acoular.C170_ident",
    "Acoular.C170_simulated_partial",
    "Acoular.C170_masked",
    "Acoular.C170_given",
    "Acoular.C170_void_violated",
    "Acoular.C170_wav_violated",
    "Acoular.C170_channels_violated",
    "Acoular.C170_same_name_violated"
   ],
   "note": "Proved: the name for any chain on a recording, and that spectra of simulated data without Cache have names of their own (class and digest). False: all simulated data behind a Cache share void_cache.h5 (their nodes differ by digest, C135); recordings with the same name in different directories share a file; WriteWAV without a name writes all simulated signals to void<channels>.wav, one over the other, and channels 1 and 2 to the same file as channel 12. Attributes basename of user defined classes and objects without a source are not modelled."
  }
 ]
}