{
 "claims": [
  {
   "property": "C01",
   "status": "proved",
   "theorems": [
    "Verif.C01_coherent_bin_optimal",
    "Verif.C01_coherent_bin_globally_closest"
   ],
   "note": ""
  },
  {
   "property": "C02",
   "status": "proved",
   "theorems": [
    "Verif.C02_coherent_error_iff",
    "Verif.C02_coherent_total"
   ],
   "note": ""
  },
  {
   "property": "C03",
   "status": "proved",
   "theorems": [
    "Verif.C03_coherent_phases_distinct",
    "Verif.C03_coherent_phases_all_visited"
   ],
   "note": ""
  },
  {
   "property": "C04",
   "status": "proved",
   "theorems": [
    "Verif.C04_fold_is_alias",
    "Verif.C04_fold_unique",
    "Verif.C04_fold_even_periodic_idempotent",
    "Verif.C04_fold_same_samples"
   ],
   "note": ""
  },
  {
   "property": "C05",
   "status": "partial",
   "theorems": [
    "Verif.C05_fold_bin_range_false",
    "Verif.C05_fold_bin_even_partial",
    "Verif.C05_fold_bin_integer_partial",
    "Verif.C05_fold_bin_any_partial"
   ],
   "note": "For odd n_fft and fractional bins the result can exceed n_fft/2 (C05_fold_bin_range_false); everything else is proved by the _partial theorems (even n_fft, integer bins, and the weaker bound for all)."
  },
  {
   "property": "C06",
   "status": "proved",
   "theorems": [
    "Verif.C06_db_round_trips",
    "Verif.C06_db_scales_consistent",
    "Verif.C06_dbm_round_trips",
    "Verif.C06_lsb_enob_round_trips",
    "Verif.C06_sine_power",
    "Verif.C06_target_level"
   ],
   "note": ""
  },
  {
   "property": "C07",
   "status": "proved",
   "theorems": [
    "Verif.C07_bin_freq_round_trip"
   ],
   "note": ""
  },
  {
   "property": "C08",
   "status": "proved",
   "theorems": [
    "Verif.C08_nsd_round_trips",
    "Verif.C08_nsd_implementations_agree",
    "Verif.C08_positional_arguments_disagree",
    "Verif.C08_osr_gain",
    "Verif.C08_amplitudes_to_snr"
   ],
   "note": "The two implementations agree by name; with the same positional arguments they differ (C08_positional_arguments_disagree)."
  },
  {
   "property": "C09",
   "status": "proved",
   "theorems": [
    "Verif.C09_cap_weights_are_thevenin",
    "Verif.C09_open_output_voltage",
    "Verif.C09_cap_weights_range",
    "Verif.C09_cap_weights_error_iff",
    "Verif.C09_no_bridge_share"
   ],
   "note": ""
  },
  {
   "property": "C10",
   "status": "proved",
   "theorems": [
    "Verif.C10_sar_is_floor_quantizer",
    "Verif.C10_sar_bad_range"
   ],
   "note": ""
  },
  {
   "property": "C11",
   "status": "proved",
   "theorems": [
    "Verif.C11_sar_error_below_lsb"
   ],
   "note": ""
  },
  {
   "property": "C12",
   "status": "proved",
   "theorems": [
    "Verif.C12_sar_monotone"
   ],
   "note": ""
  },
  {
   "property": "C13",
   "status": "proved",
   "theorems": [
    "Verif.C13_redundancy_residue",
    "Verif.C13_redundancy_necessary"
   ],
   "note": ""
  },
  {
   "property": "C14",
   "status": "proved",
   "theorems": [
    "Verif.C14_noise_residue",
    "Verif.C14_downward_noise_absorbed",
    "Verif.C14_symmetric_noise_false"
   ],
   "note": "The symmetric claim is refuted by C14_symmetric_noise_false; the one-sided claims hold for every noise sequence."
  },
  {
   "property": "C15",
   "status": "proved",
   "theorems": [
    "Verif.C15_ideal_weights_binary",
    "Verif.C15_ideal_weights_redundant",
    "Verif.C15_minus_one_breaks_order",
    "Verif.C15_error_iff"
   ],
   "note": "Index -1 is the only accepted position that breaks the ordering (C15_minus_one_breaks_order)."
  },
  {
   "property": "C16",
   "status": "proved",
   "theorems": [
    "Verif.C16_quantizer_agrees_with_sar"
   ],
   "note": ""
  },
  {
   "property": "C17",
   "status": "proved",
   "theorems": [
    "Verif.C17_deinterleave_split",
    "Verif.C17_interleave_deinterleave",
    "Verif.C17_deinterleave_interleave"
   ],
   "note": ""
  },
  {
   "property": "C18",
   "status": "proved",
   "theorems": [
    "Verif.C18_deinterleave_error_iff"
   ],
   "note": ""
  },
  {
   "property": "C19",
   "status": "proved",
   "theorems": [
    "Verif.C19_calibration_inverts_mismatch",
    "Verif.C19_calibration_length_check",
    "Verif.C19_unknown_method_accepted"
   ],
   "note": ""
  },
  {
   "property": "C20",
   "status": "proved",
   "theorems": [
    "Verif.C20_normalised",
    "Verif.C20_errors",
    "Verif.C20_scale",
    "Verif.C20_recovers_parameters"
   ],
   "note": ""
  },
  {
   "property": "C21",
   "status": "proved",
   "theorems": [
    "Verif.C21_taps_interpolate",
    "Verif.C21_taps_sum_one",
    "Verif.C21_integer_delay_exact",
    "Verif.C21_polynomial_delay_exact",
    "Verif.C21_farrow_error_iff",
    "Verif.C21_documentation_mismatch"
   ],
   "note": ""
  },
  {
   "property": "C22",
   "status": "proved",
   "theorems": [
    "Verif.C22_integer_delay_is_rotation",
    "Verif.C22_zero_delay_identity",
    "Verif.C22_total",
    "Verif.C22_delays_compose",
    "Verif.C22_compose_false_even",
    "Verif.C22_bandlimited_delay_exact"
   ],
   "note": ""
  },
  {
   "property": "C23",
   "status": "proved",
   "theorems": [
    "Verif.C23_spurs_complete_sorted",
    "Verif.C23_matched_channels_no_spurs",
    "Verif.C23_errors"
   ],
   "note": ""
  },
  {
   "property": "C24",
   "status": "proved",
   "theorems": [
    "Verif.C24_spurs_reconstruct_capture",
    "Verif.C24_offset_lines",
    "Verif.C24_offset_entry_is_half_the_tone"
   ],
   "note": ""
  },
  {
   "property": "C25",
   "status": "proved",
   "theorems": [
    "Verif.C25_count_range",
    "Verif.C25_error_iff",
    "Verif.C25_osr_one",
    "Verif.C25_antitone",
    "Verif.C25_counts_band"
   ],
   "note": ""
  },
  {
   "property": "C26",
   "status": "proved",
   "theorems": [
    "Verif.C26_total_power",
    "Verif.C26_compute_spectrum_total",
    "Verif.C26_default_side_bin_covers_lobe",
    "Verif.C26_coherent_tone"
   ],
   "note": ""
  },
  {
   "property": "C27",
   "status": "partial",
   "theorems": [
    "Verif.C27_fundamental_strongest",
    "Verif.C27_only_dc",
    "Verif.C27_refined_within_half_bin_partial",
    "Verif.C27_refined_bin_one_partial",
    "Verif.C27_refined_bin_one_fails",
    "Verif.C27_parabola_exact",
    "Verif.C27_coherent_bin_exact"
   ],
   "note": "C27_refined_bin_one_fails shows the documented half-bin accuracy fails next to DC."
  },
  {
   "property": "C28",
   "status": "proved",
   "theorems": [
    "Verif.C28_noise_and_distortion_spec",
    "Verif.C28_power_partition",
    "Verif.C28_spur_between",
    "Verif.C28_sfdr_ge_sndr",
    "Verif.C28_compute_spectrum_sfdr_ge_sndr"
   ],
   "note": ""
  },
  {
   "property": "C29",
   "status": "proved",
   "theorems": [
    "Verif.C29_thd_bins_spec",
    "Verif.C29_collided_spec",
    "Verif.C29_harmonic_power_spec",
    "Verif.C29_thd_excludes_signal",
    "Verif.C29_thd_power",
    "Verif.C29_thd_bounds",
    "Verif.C29_harmonic_bin_is_alias",
    "Verif.C29_thd_can_exceed_noise_and_distortion"
   ],
   "note": ""
  },
  {
   "property": "C30",
   "status": "proved",
   "theorems": [
    "Verif.C30_quick_sndr_agrees",
    "Verif.C30_negative_side_bin"
   ],
   "note": ""
  },
  {
   "property": "C31",
   "status": "proved",
   "theorems": [
    "Verif.C31_prepare_affine",
    "Verif.C31_compute_spectrum_affine",
    "Verif.C31_compute_spectrum_inverted",
    "Verif.C31_prepared_zero_mean",
    "Verif.C31_prepared_span",
    "Verif.C31_given_range",
    "Verif.C31_full_scale"
   ],
   "note": ""
  },
  {
   "property": "C32",
   "status": "proved",
   "theorems": [
    "Verif.C32_power_average_perm",
    "Verif.C32_coherent_average_perm",
    "Verif.C32_power_average_replicate",
    "Verif.C32_compute_spectrum_perm"
   ],
   "note": ""
  },
  {
   "property": "C33",
   "status": "proved",
   "theorems": [
    "Verif.C33_side_bin_range",
    "Verif.C33_side_bin_crossing"
   ],
   "note": ""
  },
  {
   "property": "C34",
   "status": "partial",
   "theorems": [
    "Verif.C34_harmonic_bins",
    "Verif.C34_other_bins",
    "Verif.C34_magnitudes",
    "Verif.C34_shift_invariant",
    "Verif.C34_coherent_average_of_shifts",
    "Verif.C34_opposite_captures_cancel_even_bins",
    "Verif.C34_window_leakage_lost"
   ],
   "note": "C34_window_leakage_lost: with a Hann window, coherent averaging of opposite-phase captures loses leakage power, so the power-preservation sentence is refuted; all other sentences are proved."
  },
  {
   "property": "C35",
   "status": "proved",
   "theorems": [
    "Verif.C35_sweep_equals_direct",
    "Verif.C35_order_irrelevant",
    "Verif.C35_monotone",
    "Verif.C35_nonpositive_osr",
    "Verif.C35_perfosr_check",
    "Verif.C35_default_osr_pos"
   ],
   "note": ""
  },
  {
   "property": "C36",
   "status": "partial",
   "theorems": [
    "Verif.C36_projection_even",
    "Verif.C36_full_band_even",
    "Verif.C36_linear",
    "Verif.C36_tones",
    "Verif.C36_odd_top_bin_halved",
    "Verif.C36_projection_odd_partial",
    "Verif.C36_band_contract",
    "Verif.C36_band_order_irrelevant",
    "Verif.C36_column",
    "Verif.C36_column_idempotent"
   ],
   "note": "Proved for even lengths; for odd lengths C36_odd_top_bin_halved refutes the identity, and the projection is proved when no band reaches the top bin."
  },
  {
   "property": "C37",
   "status": "proved",
   "theorems": [
    "Verif.C37_estimate_floor",
    "Verif.C37_error_iff",
    "Verif.C37_auto_is_median",
    "Verif.C37_trim_nonempty",
    "Verif.C37_candidate_bins_spec",
    "Verif.C37_wide_exclusion",
    "Verif.C37_exclude_harmonics",
    "Verif.C37_median_bounds",
    "Verif.C37_trimmed_bounds",
    "Verif.C37_flat_floor",
    "Verif.C37_median_ratio_biased",
    "Verif.C37_snr_ge_sndr"
   ],
   "note": ""
  },
  {
   "property": "C38",
   "status": "proved",
   "theorems": [
    "Verif.C38_patch_recover_exact",
    "Verif.C38_recover_succeeds",
    "Verif.C38_all_constant_fails",
    "Verif.C38_ratios_and_dead_bits",
    "Verif.C38_new_column_iff_independent",
    "Verif.C38_complementary_bits_cancel"
   ],
   "note": ""
  },
  {
   "property": "C39",
   "status": "proved",
   "theorems": [
    "Verif.C39_scaling_undone",
    "Verif.C39_conditioned"
   ],
   "note": ""
  },
  {
   "property": "C40",
   "status": "proved",
   "theorems": [
    "Verif.C40_noise_free",
    "Verif.C40_full_rank",
    "Verif.C40_lite",
    "Verif.C40_stuck_bits"
   ],
   "note": "The recovery theorems hold for every exact least-squares solver; the lite variant additionally needs a non-zero cosine component (it forces that coefficient to one)."
  },
  {
   "property": "C41",
   "status": "proved",
   "theorems": [
    "Verif.C41_decomposition"
   ],
   "note": ""
  },
  {
   "property": "C42",
   "status": "partial",
   "theorems": [
    "Verif.C42_single_known_partial",
    "Verif.C42_multi_scale",
    "Verif.C42_multi_false",
    "Verif.C42_zero_iterations",
    "Verif.C42_search_step",
    "Verif.C42_search_leaves_exact_frequency"
   ],
   "note": "Refuted for several datasets (C42_multi_false) and for the frequency search (C42_search_leaves_exact_frequency, C42_zero_iterations); C42_single_known_partial proves the claim for one dataset with known frequency."
  },
  {
   "property": "C43",
   "status": "proved",
   "theorems": [
    "Verif.C43_bit_activity"
   ],
   "note": ""
  },
  {
   "property": "C44",
   "status": "proved",
   "theorems": [
    "Verif.C44_overflow",
    "Verif.C44_percent_monotone",
    "Verif.C44_scaling",
    "Verif.C44_errors"
   ],
   "note": ""
  },
  {
   "property": "C45",
   "status": "proved",
   "theorems": [
    "Verif.C45_radix",
    "Verif.C45_resolution",
    "Verif.C45_errors",
    "Verif.C45_scale_optimal",
    "Verif.C45_integer_weights",
    "Verif.C45_reorder",
    "Verif.C45_scaling",
    "Verif.C45_binary"
   ],
   "note": ""
  },
  {
   "property": "C46",
   "status": "proved",
   "theorems": [
    "Verif.C46_ramp_bookkeeping",
    "Verif.C46_ramp_extremes",
    "Verif.C46_ramp_endpoints",
    "Verif.C46_ramp_fit"
   ],
   "note": ""
  },
  {
   "property": "C47",
   "status": "proved",
   "theorems": [
    "Verif.C47_ramp_errors",
    "Verif.C47_ramp_ok_iff",
    "Verif.C47_ramp_bad_record",
    "Verif.C47_ramp_reorder",
    "Verif.C47_ramp_repeat"
   ],
   "note": ""
  },
  {
   "property": "C48",
   "status": "partial",
   "theorems": [
    "Verif.C48_sine_bookkeeping",
    "Verif.C48_sine_value",
    "Verif.C48_sine_missing_partial",
    "Verif.C48_sine_uniform",
    "Verif.C48_sine_exact",
    "Verif.C48_sine_histogram_only",
    "Verif.C48_sine_voltage",
    "Verif.C48_sine_errors",
    "Verif.C48_label_shift"
   ],
   "note": "The value, missing-code, uniform and exactness theorems hold for the histogram after clipping; the DNL is scaled by the clipped code count although two end codes are dropped, and C48_label_shift shows the code labels shift by one position."
  },
  {
   "property": "C49",
   "status": "proved",
   "theorems": [
    "Verif.C49_nearest_bin",
    "Verif.C49_range",
    "Verif.C49_conservation",
    "Verif.C49_bin_members",
    "Verif.C49_errors",
    "Verif.C49_inferred_range_misses_data"
   ],
   "note": ""
  },
  {
   "property": "C50",
   "status": "proved",
   "theorems": [
    "Verif.C50_variances",
    "Verif.C50_curve",
    "Verif.C50_recovery",
    "Verif.C50_recovery_no_base",
    "Verif.C50_bins",
    "Verif.C50_bin_members",
    "Verif.C50_r_squared",
    "Verif.C50_errors",
    "Verif.C50_phase_reference",
    "Verif.C50_pure_tone",
    "Verif.C50_sine_plus_noise"
   ],
   "note": ""
  },
  {
   "property": "C51",
   "status": "proved",
   "theorems": [
    "Verif.C51_split",
    "Verif.C51_reconstruction",
    "Verif.C51_recovery",
    "Verif.C51_time_shift",
    "Verif.C51_frequency"
   ],
   "note": ""
  },
  {
   "property": "C52",
   "status": "proved",
   "theorems": [
    "Verif.C52_values",
    "Verif.C52_symmetric",
    "Verif.C52_lag_zero",
    "Verif.C52_errors",
    "Verif.C52_succeeds_iff",
    "Verif.C52_magnitude_exceeds_one"
   ],
   "note": "C52_magnitude_exceeds_one: the normalized values are not bounded by one; the sharp n/(n-lag) bound is proved instead."
  },
  {
   "property": "C53",
   "status": "proved",
   "theorems": [
    "Verif.C53_quantizer",
    "Verif.C53_quantizer_idempotent"
   ],
   "note": ""
  },
  {
   "property": "C54",
   "status": "proved",
   "theorems": [
    "Verif.C54_expansion",
    "Verif.C54_unique",
    "Verif.C54_amplitudes",
    "Verif.C54_single_level",
    "Verif.C54_relative_level_false",
    "Verif.C54_levels_interact",
    "Verif.C54_errors"
   ],
   "note": "Amplitudes relative to the sine amplitude are exact; relative to the distorted fundamental (true dBc) the claim fails for odd orders (C54_relative_level_false) and levels interact (C54_levels_interact)."
  },
  {
   "property": "C55",
   "status": "proved",
   "theorems": [
    "Verif.C55_default",
    "Verif.C55_errors",
    "Verif.C55_custom",
    "Verif.C55_low_frequency"
   ],
   "note": ""
  },
  {
   "property": "C56",
   "status": "proved",
   "theorems": [
    "Verif.C56_range",
    "Verif.C56_first_sample_outside_input_range",
    "Verif.C56_constant",
    "Verif.C56_default"
   ],
   "note": "The range includes the offset the recursion starts from; C56_first_sample_outside_input_range shows it must."
  },
  {
   "property": "C57",
   "status": "proved",
   "theorems": [
    "Verif.C57_aout",
    "Verif.C57_aout_warning",
    "Verif.C57_dout",
    "Verif.C57_dout_warnings",
    "Verif.C57_bool_rejected"
   ],
   "note": "C57_bool_rejected: boolean matrices, which a source comment allows, are rejected."
  },
  {
   "property": "C58",
   "status": "proved",
   "theorems": [
    "Verif.C58_iteration_control",
    "Verif.C58_decomposition",
    "Verif.C58_least_squares",
    "Verif.C58_sine_plus_error",
    "Verif.C58_exact_recovery",
    "Verif.C58_estimate",
    "Verif.C58_coherent_recovery",
    "Verif.C58_estimate_frequency",
    "Verif.C58_columns"
   ],
   "note": ""
  },
  {
   "property": "C59",
   "status": "proved",
   "theorems": [
    "Verif.C59_explicit",
    "Verif.C59_flags",
    "Verif.C59_bundled",
    "Verif.C59_aliases",
    "Verif.C59_alias_table"
   ],
   "note": ""
  },
  {
   "property": "C60",
   "status": "proved",
   "theorems": [
    "Verif.C60_frame",
    "Verif.C60_no_force_preserves",
    "Verif.C60_history",
    "Verif.C60_no_force_fails",
    "Verif.C60_installs",
    "Verif.C60_partial_install_remains",
    "Verif.C60_force_into_bundle_destroys",
    "Verif.C60_main",
    "Verif.C60_status_unknown_uncaught"
   ],
   "note": "C60_partial_install_remains: a failing multi-skill install keeps the skills installed before the failure. C60_force_into_bundle_destroys: the excluded destination (the bundle itself) loses the bundled skill."
  },
  {
   "property": "C61",
   "status": "proved",
   "theorems": [
    "Verif.C61_sample_rate_only_affects_nsd"
   ],
   "note": ""
  },
  {
   "property": "C62",
   "status": "proved",
   "theorems": [
    "Verif.C62_noise_floor_identities",
    "Verif.C62_noise_floor_is_noise_power",
    "Verif.C62_assumed_signal",
    "Verif.C62_decibel_ledger"
   ],
   "note": ""
  },
  {
   "property": "C63",
   "status": "proved",
   "theorems": [
    "Verif.C63_compute_spectrum_total",
    "Verif.C63_errors_are_value_errors"
   ],
   "note": ""
  },
  {
   "property": "C64",
   "status": "partial",
   "theorems": [
    "Verif.C64_total_noise",
    "Verif.C64_sweep_reads_3dB_low"
   ],
   "note": "Refuted: C64_sweep_reads_3dB_low proves the sweep reads 10*log10(2) dB low for every residual without DC/Nyquist content."
  },
  {
   "property": "C65",
   "status": "partial",
   "theorems": [
    "Verif.C65_prepare",
    "Verif.C65_frequency_guard",
    "Verif.C65_value_error",
    "Verif.C65_succeeds",
    "Verif.C65_negative_frequency_accepted"
   ],
   "note": "The exact ValueError condition is C65_value_error and the exact success condition on 0/1 bits is C65_succeeds; the lower end is refuted by C65_negative_frequency_accepted."
  },
  {
   "property": "C66",
   "status": "proved",
   "theorems": [
    "Verif.C66_residuals",
    "Verif.C66_any_stage",
    "Verif.C66_defaults",
    "Verif.C66_stages",
    "Verif.C66_sar_stage_range",
    "Verif.C66_errors"
   ],
   "note": ""
  },
  {
   "property": "C67",
   "status": "proved",
   "theorems": [
    "Verif.C67_ramp_accuracy"
   ],
   "note": ""
  },
  {
   "property": "C68",
   "status": "proved",
   "theorems": [
    "Verif.C68_gain_error",
    "Verif.C68_dynamic",
    "Verif.C68_dynamic_state",
    "Verif.C68_memory"
   ],
   "note": ""
  },
  {
   "property": "C69",
   "status": "proved",
   "theorems": [
    "Verif.C69_sidebands",
    "Verif.C69_envelope"
   ],
   "note": ""
  },
  {
   "property": "C70",
   "status": "proved",
   "theorems": [
    "Verif.C70_clipping",
    "Verif.C70_edge",
    "Verif.C70_above_half"
   ],
   "note": ""
  },
  {
   "property": "C71",
   "status": "proved",
   "theorems": [
    "Verif.C71_jitter",
    "Verif.C71_glitch"
   ],
   "note": ""
  },
  {
   "property": "C72",
   "status": "proved",
   "theorems": [
    "Verif.C72_droop",
    "Verif.C72_zero"
   ],
   "note": ""
  },
  {
   "property": "C73",
   "status": "partial",
   "theorems": [
    "Verif.C73_kind_conflict_reported_equal",
    "Verif.C73_equal_iff_partial",
    "Verif.C73_no_false_synced",
    "Verif.C73_reflexive",
    "Verif.C73_synced_after_install",
    "Verif.C73_row"
   ],
   "note": "Refuted for file/directory conflicts (C73_kind_conflict_reported_equal); proved for trees without them, on paths whose names filecmp does not ignore."
  },
  {
   "property": "C74",
   "status": "proved",
   "theorems": [
    "Verif.C74_contents",
    "Verif.C74_copy_examples"
   ],
   "note": ""
  },
  {
   "property": "C75",
   "status": "proved",
   "theorems": [
    "Verif.C75_flat",
    "Verif.C75_band_share",
    "Verif.C75_gain",
    "Verif.C75_band_monotone",
    "Verif.C75_empty_band",
    "Verif.C75_order_helps"
   ],
   "note": ""
  },
  {
   "property": "C76",
   "status": "proved",
   "theorems": [
    "Verif.C76_lag_accepted",
    "Verif.C76_at_most_half",
    "Verif.C76_threshold_monotone",
    "Verif.C76_affine_invariant",
    "Verif.C76_majority_circle",
    "Verif.C76_auto_lag"
   ],
   "note": ""
  },
  {
   "property": "C77",
   "status": "proved",
   "theorems": [
    "Verif.C77_errors",
    "Verif.C77_best_polynomial",
    "Verif.C77_transfer_range",
    "Verif.C77_exact_curve",
    "Verif.C77_compression_bias",
    "Verif.C77_ideal_fit_gain",
    "Verif.C77_pure_sine"
   ],
   "note": ""
  },
  {
   "property": "C78",
   "status": "proved",
   "theorems": [
    "Verif.C78_walden",
    "Verif.C78_schreier",
    "Verif.C78_thermal",
    "Verif.C78_thermal_units",
    "Verif.C78_jitter",
    "Verif.C78_jitter_worst_case"
   ],
   "note": ""
  },
  {
   "property": "C79",
   "status": "proved",
   "theorems": [
    "Verif.C79_units",
    "Verif.C79_resolution",
    "Verif.C79_densities",
    "Verif.C79_grid",
    "Verif.C79_kl_bound",
    "Verif.C79_noise_free_is_nan"
   ],
   "note": ""
  },
  {
   "property": "C80",
   "status": "proved",
   "theorems": [
    "Verif.C80_units",
    "Verif.C80_trend",
    "Verif.C80_gap_exact",
    "Verif.C80_gap_bounds",
    "Verif.C80_two_level_refused"
   ],
   "note": ""
  },
  {
   "property": "C81",
   "status": "proved",
   "theorems": [
    "Verif.C81_entries",
    "Verif.C81_last_is_calibrated",
    "Verif.C81_zero_weight_bit",
    "Verif.C81_stuck_bit",
    "Verif.C81_noise_free",
    "Verif.C81_wide_refused"
   ],
   "note": ""
  },
  {
   "property": "C82",
   "status": "proved",
   "theorems": [
    "Verif.C82_cutoff_bins",
    "Verif.C82_fundamental_above_cutoff",
    "Verif.C82_no_cutoff"
   ],
   "note": ""
  },
  {
   "property": "C83",
   "status": "proved",
   "theorems": [
    "Verif.C83_envelope_bounds",
    "Verif.C83_analytic_signal",
    "Verif.C83_modulated_error",
    "Verif.C83_analyses",
    "Verif.C83_end_to_end",
    "Verif.C83_error_size_not_reported",
    "Verif.C83_constant_is_silence"
   ],
   "note": ""
  },
  {
   "property": "C84",
   "status": "proved",
   "theorems": [
    "Verif.C84_given_frequency",
    "Verif.C84_range",
    "Verif.C84_datasets_independent",
    "Verif.C84_succeeds",
    "Verif.C84_bit_order",
    "Verif.C84_exact",
    "Verif.C84_zero_is_automatic",
    "Verif.C84_calibration_from_estimate"
   ],
   "note": ""
  },
  {
   "property": "C85",
   "status": "proved",
   "theorems": [
    "Verif.C85_legacy_names",
    "Verif.C85_legacy_idempotent",
    "Verif.C85_spectrum_wrapper",
    "Verif.C85_virtuoso",
    "Verif.C85_polar",
    "Verif.C85_decompose_tuple",
    "Verif.C85_autocorr_refits",
    "Verif.C85_histogram_tuples",
    "Verif.C85_calibration_order",
    "Verif.C85_signal_level"
   ],
   "note": ""
  },
  {
   "property": "C86",
   "status": "proved",
   "theorems": [
    "Verif.C86_accepts_iff",
    "Verif.C86_deviation",
    "Verif.C86_stays_positive",
    "Verif.C86_scale",
    "Verif.C86_trend",
    "Verif.C86_statistics",
    "Verif.C86_parallel_units",
    "Verif.C86_binary_units",
    "Verif.C86_redundant_units",
    "Verif.C86_older_helper"
   ],
   "note": ""
  },
  {
   "property": "C87",
   "status": "proved",
   "theorems": [
    "Verif.C87_thermal",
    "Verif.C87_drift",
    "Verif.C87_am_noise",
    "Verif.C87_am_noise_power",
    "Verif.C87_jitter_bound",
    "Verif.C87_jitter_mean",
    "Verif.C87_jitter_power",
    "Verif.C87_glitch"
   ],
   "note": ""
  },
  {
   "property": "C88",
   "status": "proved",
   "theorems": [
    "Verif.C88_aligned_harmonic",
    "Verif.C88_average",
    "Verif.C88_complex_spectrum",
    "Verif.C88_printed_angle",
    "Verif.C88_memoryless",
    "Verif.C88_square_law",
    "Verif.C88_zone_independence_fails",
    "Verif.C88_power_agrees",
    "Verif.C88_no_angle"
   ],
   "note": "C88_zone_independence_fails: folded harmonics show the relative phase with reversed sign. C88_square_law: HD2 at 180 degrees for a negative coefficient, which the docstring excludes."
  },
  {
   "property": "C89",
   "status": "partial",
   "theorems": [
    "Verif.C89_frequency",
    "Verif.C89_fin_partial",
    "Verif.C89_fin_thousandfold",
    "Verif.C89_volt"
   ],
   "note": "C89_fin_thousandfold: between 1 Hz and 1 kHz the light style prints the input frequency divided by 1000 without unit; C89_fin_partial covers the rest."
  },
  {
   "property": "C90",
   "status": "partial",
   "theorems": [
    "Verif.C90_axis_floor",
    "Verif.C90_light_floor",
    "Verif.C90_dark_floor",
    "Verif.C90_spur_label",
    "Verif.C90_marks",
    "Verif.C90_even_length_partial",
    "Verif.C90_odd_length_fails",
    "Verif.C90_odd_record_fails",
    "Verif.C90_odd_record_exists"
   ],
   "note": "C90_odd_length_fails, C90_odd_record_fails, C90_odd_record_exists refute the no-failure claim for odd record lengths; even lengths and on-bin fundamentals are proved (C90_even_length_partial, C90_marks)."
  },
  {
   "property": "C91",
   "status": "partial",
   "theorems": [
    "Verif.C91_radius",
    "Verif.C91_tick_labels",
    "Verif.C91_decomposition",
    "Verif.C91_noise_circle_outside"
   ],
   "note": "C91_tick_labels proves the exact label error of plot_spectrum_polar (zero only for multiples of 10 dB); C91_noise_circle_outside refutes the claim for the noise circle."
  },
  {
   "property": "C92",
   "status": "proved",
   "theorems": [
    "Verif.C92_window",
    "Verif.C92_display_length",
    "Verif.C92_margins",
    "Verif.C92_dnl_limits",
    "Verif.C92_ramp_shown"
   ],
   "note": "C92_dnl_limits gives the exact condition for the limits to contain the data; C92_ramp_shown proves it for ramp results."
  },
  {
   "property": "C93",
   "status": "proved",
   "theorems": [
    "Verif.C93_line",
    "Verif.C93_uniform",
    "Verif.C93_is_line",
    "Verif.C93_lookup",
    "Verif.C93_nearest",
    "Verif.C93_measured_skew",
    "Verif.C93_reachable_optimum",
    "Verif.C93_third_harmonic",
    "Verif.C93_noise",
    "Verif.C93_third_harmonic_level"
   ],
   "note": "The third harmonic level differs from the requested one (C93_third_harmonic_level); both are proved exactly."
  },
  {
   "property": "C94",
   "status": "proved",
   "theorems": [
    "Verif.C94_mad_intervals",
    "Verif.C94_step",
    "Verif.C94_expected_mad",
    "Verif.C94_any_start_phase",
    "Verif.C94_decision",
    "Verif.C94_converges",
    "Verif.C94_disturbance",
    "Verif.C94_two_channels",
    "Verif.C94_coupled_channels",
    "Verif.C94_shipped_settings",
    "Verif.C94_runs"
   ],
   "note": "C94_coupled_channels shows that the coupling term of the dead band is unavoidable. Gaussian noise enters as a bounded disturbance. The best-SFDR bookkeeping and the plots of the script are not modelled."
  },
  {
   "property": "C95",
   "status": "proved",
   "theorems": [
    "Verif.C95_sndr_is_sinad",
    "Verif.C95_agrees_with_sine_fit",
    "Verif.C95_bounded_error",
    "Verif.C95_error_band",
    "Verif.C95_sar_sndr",
    "Verif.C95_ideal_converter_enob",
    "Verif.C95_upper_bound_false"
   ],
   "note": "The plain call is win_type boxcar, side_bin 0, osr 1, no coherent averaging. C95_upper_bound_false proves that no upper bound holds. Rounding of float64 arithmetic is not modelled."
  },
  {
   "property": "C96",
   "status": "proved",
   "theorems": [
    "Verif.C96_windowed_sndr",
    "Verif.C96_ideal_converter_enob",
    "Verif.C96_quick_sndr"
   ],
   "note": "Kaiser and Chebyshev windows are library functions of unknown shape and are excluded. Power averaging only; coherent averaging is C34."
  },
  {
   "property": "C97",
   "status": "proved",
   "theorems": [
    "Verif.C97_values",
    "Verif.C97_monotone",
    "Verif.C97_run",
    "Verif.C97_axes",
    "Verif.C97_plot_fails_iff",
    "Verif.C97_quarter_rate_fails",
    "Verif.C97_marks",
    "Verif.C97_line_is_band_edge",
    "Verif.C97_slope_nonneg",
    "Verif.C97_white_noise_limit",
    "Verif.C97_white_error",
    "Verif.C97_slope_panel",
    "Verif.C97_smoothing"
   ],
   "note": "C97_plot_fails_iff and C97_quarter_rate_fails: the plot raises ZeroDivisionError when a harmonic folds to DC. Decibel values are real, so the statements about levels assume a positive in-band error. A negative smooth argument is not modelled."
  },
  {
   "property": "C98",
   "status": "proved",
   "theorems": [
    "Verif.C98_activity_mark",
    "Verif.C98_activity_axis",
    "Verif.C98_dead_bit",
    "Verif.C98_enob_gains",
    "Verif.C98_enob_text",
    "Verif.C98_enob_colour",
    "Verif.C98_enob_axis",
    "Verif.C98_overflow_dots",
    "Verif.C98_overflow_layout",
    "Verif.C98_radix_labels",
    "Verif.C98_radix_markers",
    "Verif.C98_radix_text",
    "Verif.C98_scatter_grid",
    "Verif.C98_scatter_alpha"
   ],
   "note": "C98_dead_bit: a bit that is never 1 shows no bar and its text is outside the axis. C98_radix_labels assumes what numpy documents for argsort: a descending order of the weights."
  },
  {
   "property": "C99",
   "status": "proved",
   "theorems": [
    "Verif.C99_curves",
    "Verif.C99_total_mean_square",
    "Verif.C99_phase_bars",
    "Verif.C99_curves_in_axis",
    "Verif.C99_model_data_best_fit",
    "Verif.C99_phase_positions",
    "Verif.C99_dot_axes",
    "Verif.C99_mean_line",
    "Verif.C99_pm_text",
    "Verif.C99_value_bars",
    "Verif.C99_value_dots",
    "Verif.C99_value_heights"
   ],
   "note": "C99_curves_in_axis and the second half of C99_total_mean_square need the fitted model to be the best one (BestNoiseFit); C99_model_data_best_fit supplies it when the squared errors follow the model. Clipping of a negative coefficient can break it."
  },
  {
   "property": "C100",
   "status": "proved",
   "theorems": [
    "Verif.C100_convergence",
    "Verif.C100_quadratic",
    "Verif.C100_estimate_frequency"
   ],
   "note": "Local: the size of the neighbourhood is proved positive but not given in numbers. The starting frequency is passed in; the FFT starting value is C58/C84."
  },
  {
   "property": "C101",
   "status": "proved",
   "theorems": [
    "Verif.C101_near_optimal",
    "Verif.C101_noise",
    "Verif.C101_unique_is_pinned"
   ],
   "note": "One dataset, known frequency, rank-complete bit matrix. K depends on the record and is not given in numbers; the factor 2 is the price of fixing one quadrature component and choosing the larger one."
  },
  {
   "property": "C102",
   "status": "proved",
   "theorems": [
    "Verif.C102_ramp",
    "Verif.C102_ramp_visible",
    "Verif.C102_ramp_default",
    "Verif.C102_signed_hidden",
    "Verif.C102_sine",
    "Verif.C102_sine_narrow",
    "Verif.C102_sine_dnl_visible",
    "Verif.C102_sine_inl_hidden"
   ],
   "note": "C102_signed_hidden and C102_sine_inl_hidden refute full visibility; C102_sine_narrow describes the failure of the plot."
  },
  {
   "property": "C103",
   "status": "proved",
   "theorems": [
    "Verif.C103_one_calibration",
    "Verif.C103_nominal_only",
    "Verif.C103_nominal",
    "Verif.C103_succeeds",
    "Verif.C103_wide_refused",
    "Verif.C103_stuck_bit",
    "Verif.C103_noise_free"
   ],
   "note": "The figure is the collection of the results of its panels; drawing, saving and showing are not modelled. Panel 2 uses the Hann window and panel 5 the Hamming window, so the ENOB at full width need not agree between them."
  },
  {
   "property": "C104",
   "status": "proved",
   "theorems": [
    "Verif.C104_arguments",
    "Verif.C104_one_residual",
    "Verif.C104_sample_rate",
    "Verif.C104_succeeds_iff",
    "Verif.C104_refused",
    "Verif.C104_wrong_frequency",
    "Verif.C104_twelve"
   ],
   "note": "The figure is the collection of the results of its panels; drawing, saving and showing are not modelled. An all-zero envelope or error spectrum follows the spectrum model (C61)."
  },
  {
   "property": "C105",
   "status": "proved",
   "theorems": [
    "Verif.C105_fit",
    "Verif.C105_frequency",
    "Verif.C105_autocorrelation",
    "Verif.C105_density",
    "Verif.C105_decomposition",
    "Verif.C105_error_spectra",
    "Verif.C105_am_pm",
    "Verif.C105_r_squared_unit",
    "Verif.C105_by_value"
   ],
   "note": "Uses the documented choice of numpy.linalg.lstsq among several minimisers (smallest norm; IsMinNormLstsq, shown satisfiable by exists_minnorm). C105_r_squared_unit refutes unit independence of r_squared_raw; r_squared_binned has the same thresholds and is left out. Without value_range the value bins are unit-independent only for records that count as codes."
  },
  {
   "property": "C106",
   "status": "proved",
   "theorems": [
    "Verif.C106_bin_round_trip",
    "Verif.C106_lsb_nearest",
    "Verif.C106_lsb_round_trip_false",
    "Verif.C106_coherent",
    "Verif.C106_coherent_choice_false",
    "Verif.C106_fold_bound",
    "Verif.C106_fold_false",
    "Verif.C106_cutoff_within_one",
    "Verif.C106_cutoff_false",
    "Verif.C106_trimmed_indices",
    "Verif.C106_inband_count",
    "Verif.C106_inband_count_float",
    "Verif.C106_quantizer_within_one",
    "Verif.C106_quantizer_monotone",
    "Verif.C106_quantizer_exact",
    "Verif.C106_quantizer_idempotent_false",
    "Verif.C106_sar_trials",
    "Verif.C106_sar_ideal",
    "Verif.C106_sar_quantizer_agree",
    "Verif.C106_sar_exact",
    "Verif.C106_sar_reconstruct",
    "Verif.C106_overflow_exact",
    "Verif.C106_overflow_false"
   ],
   "note": "C106_lsb_nearest, C106_fold_bound, C106_cutoff_within_one and C106_quantizer_within_one bound what remains true where exactness fails; the _false theorems are the concrete failures. Overflow, underflow and decimal parsing beyond the stated literals are not modelled; transcendental functions are not covered."
  },
  {
   "property": "C107",
   "status": "proved",
   "theorems": [
    "Verif.C107_other_start",
    "Verif.C107_backwards",
    "Verif.C107_windowed_start_matters"
   ],
   "note": "Power averaging; coherent averaging of shifted runs is C34. C107_windowed_start_matters shows that the first part is false with a window. The symmetry of the Kaiser and Chebyshev windows, which are library functions, is a hypothesis."
  },
  {
   "property": "C108",
   "status": "proved",
   "theorems": [
    "Verif.C108_frequency_axis",
    "Verif.C108_curve",
    "Verif.C108_fundamental_marker",
    "Verif.C108_signal_text",
    "Verif.C108_noise_line",
    "Verif.C108_spur_marker",
    "Verif.C108_texts",
    "Verif.C108_above_axis",
    "Verif.C108_dead_run"
   ],
   "note": "Positions and levels; drawing itself is matplotlib. Axis floor, harmonic marks and spur label are C90 and C92. C108_above_axis shows that a curve can leave the axis at the top; C108_dead_run that the coherent gain note counts runs that were skipped."
  },
  {
   "property": "C109",
   "status": "proved",
   "theorems": [
    "Verif.C109_carrier",
    "Verif.C109_sndr",
    "Verif.C109_sfdr",
    "Verif.C109_sfdr_pure",
    "Verif.C109_harmonic_bins",
    "Verif.C109_harmonics",
    "Verif.C109_thd",
    "Verif.C109_snr_wide",
    "Verif.C109_snr_exclude",
    "Verif.C109_leak_share",
    "Verif.C109_succeeds",
    "Verif.C109_quick_sndr"
   ],
   "note": "Power averaging; bins are separated by more than two side bins and no lobe crosses the band edge. Noise methods 0 to 2 (median, trimmed mean) are not evaluated on tones. C109_snr_exclude and C109_leak_share state the leak of noise method 3."
  },
  {
   "property": "C110",
   "status": "proved",
   "theorems": [
    "Verif.C110_alias_is_fold",
    "Verif.C110_documented_formula",
    "Verif.C110_alias_label",
    "Verif.C110_kept_samples",
    "Verif.C110_stages",
    "Verif.C110_spur_heights",
    "Verif.C110_predicted_bin",
    "Verif.C110_sfdr_conserved",
    "Verif.C110_collision_refutes"
   ],
   "note": "Negative factors (a reversed slice) are not modelled. C110_collision_refutes shows that the condition on the aliases is needed."
  },
  {
   "property": "C111",
   "status": "proved",
   "theorems": [
    "Verif.C111_readout",
    "Verif.C111_thd",
    "Verif.C111_succeeds",
    "Verif.C111_polynomial",
    "Verif.C111_static_nonlinearity",
    "Verif.C111_hd2_alone",
    "Verif.C111_hd3_alone",
    "Verif.C111_hd4_alone",
    "Verif.C111_hd5_alone",
    "Verif.C111_k_mag",
    "Verif.C111_sign_sweep"
   ],
   "note": "Noise-free records; the aliases of the orders that are present must fall on different bins clear of each other (Readable). The sign sweep is stated for the amplitudes."
  },
  {
   "property": "C112",
   "status": "proved",
   "theorems": [
    "Verif.C112_odd_bin",
    "Verif.C112_odd_bin_near",
    "Verif.C112_odd_bin_eligible",
    "Verif.C112_odd_bin_not_eligible",
    "Verif.C112_near_nyquist",
    "Verif.C112_near_nyquist_two",
    "Verif.C112_train_bin",
    "Verif.C112_quantizer",
    "Verif.C112_noise_for_enob"
   ],
   "note": "quantize_ideal up to 53 bits (np.nextafter(1, 0) is 1 - 2^-53). C112_odd_bin_not_eligible shows that the power-of-two condition is needed."
  },
  {
   "property": "C113",
   "status": "proved",
   "theorems": [
    "Verif.C113_strict_is_ideal",
    "Verif.C113_repeat_is_ideal",
    "Verif.C113_margin",
    "Verif.C113_margins",
    "Verif.C113_repeat_recovers",
    "Verif.C113_strict_loses",
    "Verif.C113_before_calibration",
    "Verif.C113_mismatch_tolerance",
    "Verif.C113_radix18",
    "Verif.C113_binary_no_tolerance",
    "Verif.C113_ideal_binary",
    "Verif.C113_lsb_random",
    "Verif.C113_bipolar_sar"
   ],
   "note": "The MSB error is non-negative (a smaller MSB only adds coverage but shortens the range). The sine calibration itself is C39 to C42."
  },
  {
   "property": "C114",
   "status": "proved",
   "theorems": [
    "Verif.C114_is_ramp_record",
    "Verif.C114_dnl_inl",
    "Verif.C114_missing",
    "Verif.C114_refuses"
   ],
   "note": "Widths are exact numbers; the edges and the ramp are not rounded to float64. If all widths are zero numpy divides by zero, which is not modelled."
  },
  {
   "property": "C115",
   "status": "proved",
   "theorems": [
    "Verif.C115_alias",
    "Verif.C115_cap2weight",
    "Verif.C115_cap2weight_accepts",
    "Verif.C115_python_accepts_more"
   ],
   "note": "MATLAB code read as text. C115_python_accepts_more lists inputs accepted by Python only."
  },
  {
   "property": "C116",
   "status": "proved",
   "theorems": [
    "Verif.C116_overflow_matches",
    "Verif.C116_wide_differs",
    "Verif.C116_position_wraps"
   ],
   "note": "Proved for records with at least as many samples as bits and positions 1 to M; C116_wide_differs and C116_position_wraps refute the rest of \"exactly\"."
  },
  {
   "property": "C117",
   "status": "proved",
   "theorems": [
    "Verif.C117_round",
    "Verif.C117_mask",
    "Verif.C117_same_even",
    "Verif.C117_matlab_full_band",
    "Verif.C117_odd_differs",
    "Verif.C117_tie_differs"
   ],
   "note": "Proved for even lengths without half-way edges; C117_odd_differs and C117_tie_differs refute the rest. fft is exact."
  },
  {
   "property": "C118",
   "status": "proved",
   "theorems": [
    "Verif.C118_same",
    "Verif.C118_tie_differs",
    "Verif.C118_narrow_float_differs"
   ],
   "note": "Proved away from half-way values; C118_tie_differs and C118_narrow_float_differs refute the rest. Exact arithmetic (0.01 is the rational 1/100)."
  },
  {
   "property": "C119",
   "status": "proved",
   "theorems": [
    "Verif.C119_matlab_direct",
    "Verif.C119_one_bin_more",
    "Verif.C119_ntf_flat",
    "Verif.C119_ntf_narrow",
    "Verif.C119_ntf_checks"
   ],
   "note": "C119_one_bin_more and C119_ntf_narrow refute equality of the outputs and say by how much they differ; the sine fit is shared by both sweeps and not part of the comparison."
  },
  {
   "property": "C120",
   "status": "proved",
   "theorems": [
    "Verif.C120_noise_dist",
    "Verif.C120_same",
    "Verif.C120_exclude",
    "Verif.C120_sndr",
    "Verif.C120_thd_same",
    "Verif.C120_thd_out_of_band",
    "Verif.C120_thd_collision",
    "Verif.C120_harmonic_bins",
    "Verif.C120_harmonic_tie"
   ],
   "note": "Same spectrum on both sides. C120_same and C120_thd_same state the agreement; C120_noise_dist, C120_exclude, C120_sndr, C120_thd_out_of_band, C120_thd_collision and C120_harmonic_tie say exactly where it fails. Cutoff, assumed signal and negative harmonic counts of plotspec.m are not modelled."
  },
  {
   "property": "C121",
   "status": "proved",
   "theorems": [
    "Verif.C121_spectrum",
    "Verif.C121_dead_runs",
    "Verif.C121_inband",
    "Verif.C121_report"
   ],
   "note": "Power averaging, Hann and rectangular windows. C121_dead_runs refutes equality for captures with runs of zeros."
  },
  {
   "property": "C122",
   "status": "proved",
   "theorems": [
    "Verif.C122_align",
    "Verif.C122_dc",
    "Verif.C122_harmonic_bins",
    "Verif.C122_close",
    "Verif.C122_between_harmonics"
   ],
   "note": "C122_between_harmonics refutes equality at bins that are no harmonic."
  },
  {
   "property": "C123",
   "status": "proved",
   "theorems": [
    "Verif.C123_side_bin",
    "Verif.C123_coherent_tone",
    "Verif.C123_no_crossing"
   ],
   "note": "C123_no_crossing refutes equality when the search finds no crossing; crossing exactly at DC is not compared (Python halves the ideal DC bin)."
  },
  {
   "property": "C124",
   "status": "proved",
   "theorems": [
    "Verif.C124_start",
    "Verif.C124_start_constant",
    "Verif.C124_pass",
    "Verif.C124_given_frequency",
    "Verif.C124_coherent",
    "Verif.C124_findfreq",
    "Verif.C124_speed"
   ],
   "note": "C124_given_frequency, C124_start and C124_start_constant say where the two differ; C124_speed bounds the error of the default rate from both sides, in a neighbourhood whose size is not given. Exact arithmetic, one record."
  },
  {
   "property": "C125",
   "status": "proved",
   "theorems": [
    "Verif.C125_same",
    "Verif.C125_long_lags"
   ],
   "note": "C125_long_lags is the exception beyond the record; the plot is not part."
  },
  {
   "property": "C126",
   "status": "proved",
   "theorems": [
    "Verif.C126_polyfit",
    "Verif.C126_core",
    "Verif.C126_given_frequency",
    "Verif.C126_pure_sine",
    "Verif.C126_python_moves"
   ],
   "note": "C126_python_moves is the exception; that the Python refinement started at a coherent record with harmonics ends elsewhere is shown for one record shape only."
  },
  {
   "property": "C127",
   "status": "proved",
   "theorems": [
    "Verif.C127_align",
    "Verif.C127_bin",
    "Verif.C127_refine",
    "Verif.C127_refine_coherent",
    "Verif.C127_band_edge",
    "Verif.C127_weak_neighbours",
    "Verif.C127_run",
    "Verif.C127_spectrum"
   ],
   "note": "C127_band_edge and C127_weak_neighbours are the exceptions. The floor subtracted before drawing (a percentile in both, of different sets of bins) and the LMS mode are not part."
  },
  {
   "property": "C128",
   "status": "proved",
   "theorems": [
    "Verif.C128_filter",
    "Verif.C128_same",
    "Verif.C128_sine",
    "Verif.C128_refusals"
   ],
   "note": "C128_refusals is the exception. NTFs given as MATLAB system objects or structs are not part; the default ranges differ ([-0.5, 0.5] there, (0, 1) here)."
  },
  {
   "property": "C129",
   "status": "proved",
   "theorems": [
    "Verif.C129_findbin",
    "Verif.C129_findbin_answers",
    "Verif.C129_same",
    "Verif.C129_power_of_two",
    "Verif.C129_differs"
   ],
   "note": "C129_differs holds the exceptions, including the documented example. findbin.m for vectors of frequencies works entry by entry."
  },
  {
   "property": "C130",
   "status": "proved",
   "theorems": [
    "Verif.C130_answers",
    "Verif.C130_same",
    "Verif.C130_odd",
    "Verif.C130_differs"
   ],
   "note": "C130_differs holds the exceptions to the same scale. Plotting in plotwgt.m is not modelled."
  },
  {
   "property": "C131",
   "status": "proved",
   "theorems": [
    "Verif.C131_other",
    "Verif.C131_same",
    "Verif.C131_given_frequency",
    "Verif.C131_refined"
   ],
   "note": "C131_refined is the exception for a given frequency. The four signals are the first outputs of tomdec.m; the plot is not modelled."
  },
  {
   "property": "C132",
   "status": "proved",
   "theorems": [
    "Verif.C132_error",
    "Verif.C132_phase_bins",
    "Verif.C132_phase_same",
    "Verif.C132_noise",
    "Verif.C132_empty",
    "Verif.C132_noise_floor",
    "Verif.C132_noise_differs",
    "Verif.C132_value_bins",
    "Verif.C132_value_neighbour",
    "Verif.C132_value_same"
   ],
   "note": "C132_noise_floor, C132_noise_differs and C132_empty are the differences. osr > 1, erange and the plots of errsin.m are not modelled. max(NaN, 0) = 0 in MATLAB is taken from its documentation."
  },
  {
   "property": "C133",
   "status": "proved",
   "theorems": [
    "Verif.C133_same",
    "Verif.C133_same_clean",
    "Verif.C133_cosine_phase",
    "Verif.C133_patch",
    "Verif.C133_same_patched",
    "Verif.C133_search",
    "Verif.C133_above",
    "Verif.C133_rank_check",
    "Verif.C133_rank_check_call",
    "Verif.C133_search_differs"
   ],
   "note": "C133_cosine_phase, C133_search_differs, C133_above and C133_rank_check are the differences. The cell-array (several datasets) part of wcalsin.m, autotrans = 0 and autopatch = 0 are not modelled."
  },
  {
   "property": "C134",
   "status": "proved",
   "theorems": [
    "Verif.C134_same",
    "Verif.C134_noise",
    "Verif.C134_exact_iff",
    "Verif.C134_scale",
    "Verif.C134_sine"
   ],
   "note": "C134_exact_iff and C134_scale hold the differences (no constant in MATLAB's fit; full scale of several runs). OSR > 1 in the LMS mode is not modelled; Python has no such option."
  },
  {
   "property": "C135",
   "status": "proved",
   "theorems": [
    "Verif.C135_same",
    "Verif.C135_presets",
    "Verif.C135_beyond",
    "Verif.C135_negative",
    "Verif.C135_square",
    "Verif.C135_calibrated",
    "Verif.C135_clean"
   ],
   "note": "C135_beyond, C135_negative and C135_square hold the differences. Transparency, labels and the argument parser of plotres.m are not modelled; C135_clean needs a fundamental that is not a pure cosine, as C133."
  },
  {
   "property": "C136",
   "status": "proved",
   "theorems": [
    "Verif.C136_error",
    "Verif.C136_bins",
    "Verif.C136_noise",
    "Verif.C136_default",
    "Verif.C136_r2_one",
    "Verif.C136_r2_record",
    "Verif.C136_value"
   ],
   "note": "The condition on phases makes the two columns independent; without it the solvers may return different solutions. The erange option and plots of errsin_hp.m are not modelled."
  },
  {
   "property": "C137",
   "status": "proved",
   "theorems": [
    "Verif.C137_report",
    "Verif.C137_cutoff_above_false",
    "Verif.C137_removed",
    "Verif.C137_thd_false",
    "Verif.C137_python"
   ],
   "note": "For power averaging, a given side bin and a band edge not within rounding of a whole bin. The interpolated peak position of plotspec.m is a parameter. SFDR and SNR under a cutoff are not compared."
  },
  {
   "property": "C138",
   "status": "proved",
   "theorems": [
    "Verif.C138_clean",
    "Verif.C138_python",
    "Verif.C138_offsets",
    "Verif.C138_rejected",
    "Verif.C138_one_frequency",
    "Verif.C138_scale_false"
   ],
   "note": "Known frequencies without search. A first dataset in pure cosine phase is left out (there MATLAB compares the two fits against the wrong right-hand side, see C133). The frequency search per dataset is modelled but not compared."
  },
  {
   "property": "C139",
   "status": "proved",
   "theorems": [
    "Verif.C139_every_zone",
    "Verif.C139_any_signal",
    "Verif.C139_tiny_skew",
    "Verif.C139_trained",
    "Verif.C139_own_record",
    "Verif.C139_again",
    "Verif.C139_upper_zones"
   ],
   "note": "Tone frequency given to extract_mismatch_sine; the 'farrow' method is not exact on sines (C21). Consecutive skews must differ by less than half a period of the training sine (np.unwrap)."
  },
  {
   "property": "C140",
   "status": "proved",
   "theorems": [
    "Verif.C140_report",
    "Verif.C140_bounds",
    "Verif.C140_any_weights",
    "Verif.C140_harmonics_false"
   ],
   "note": "One dataset, frequency given and not searched, no window. The floor of 1e-20 of full scale is part of the statement."
  },
  {
   "property": "C141",
   "status": "proved",
   "theorems": [
    "Verif.C141_thermal",
    "Verif.C141_normal",
    "Verif.C141_jitter"
   ],
   "note": "No window, one record. The draws of np.random are modelled as independent variables; the bounds come from Chebyshev's inequality and are not the sharpest possible. For jitter only the lower bound on the SNDR is shown."
  },
  {
   "property": "C142",
   "status": "proved",
   "theorems": [
    "Verif.C142_defined",
    "Verif.C142_zero",
    "Verif.C142_linear",
    "Verif.C142_cubic",
    "Verif.C142_bounded",
    "Verif.C142_paths_agree",
    "Verif.C142_half_rate_false"
   ],
   "note": "Exact arithmetic. CubicSpline by its documented conditions on evenly spaced knots."
  },
  {
   "property": "C143",
   "status": "proved",
   "theorems": [
    "Verif.C143_predicted_power",
    "Verif.C143_sndr",
    "Verif.C143_skew_limit",
    "Verif.C143_dbc",
    "Verif.C143_dbc_carrier_false"
   ],
   "note": "Exact arithmetic. Spectrum without window or side bins, as in C95."
  },
  {
   "property": "C144",
   "status": "proved",
   "theorems": [
    "Verif.C144_am_tone",
    "Verif.C144_am_noise",
    "Verif.C144_glitch"
   ],
   "note": "Exact arithmetic; random draws as measurable functions on a probability space."
  },
  {
   "property": "C145",
   "status": "proved",
   "theorems": [
    "Verif.C145_length",
    "Verif.C145_linear",
    "Verif.C145_offset",
    "Verif.C145_smoothing",
    "Verif.C145_lowpass"
   ],
   "note": "Exact arithmetic; butter and filtfilt as scipy defines them."
  },
  {
   "property": "C146",
   "status": "proved",
   "theorems": [
    "Verif.C146_plain_ceiling",
    "Verif.C146_hann_ceiling",
    "Verif.C146_plain_floor",
    "Verif.C146_plain_enob_below",
    "Verif.C146_plain_enob_above",
    "Verif.C146_quick_sndr_below"
   ],
   "note": "Exact arithmetic, one run. The upper bounds need a fixed number of side bins (quick_sndr always, compute_spectrum with side_bin given); the automatic side bins of compute_spectrum are not covered by them."
  },
  {
   "property": "C147",
   "status": "proved",
   "theorems": [
    "Verif.C147_in_band_error",
    "Verif.C147_shaped_sndr",
    "Verif.C147_shaped_enob",
    "Verif.C147_doubling"
   ],
   "note": "Exact arithmetic, one run, rectangular window with side_bin 0. Deterministic: it does not claim the further 3 dB per doubling that white quantization noise would give. The term 2^L/sqrt(N OSR) is the start-up of lfilter from zero state. Custom NTFs are covered by the in-band theorem only."
  },
  {
   "property": "C148",
   "status": "proved",
   "theorems": [
    "Verif.C148_residue_gain",
    "Verif.C148_memory",
    "Verif.C148_settling",
    "Verif.C148_settling_bits",
    "Verif.C148_linear_settling",
    "Verif.C148_droop"
   ],
   "note": "Exact arithmetic, one run, rectangular window, side_bin 0, osr 1. Lower bounds on the SNDR only. The dynamic gain model with c3 different from 0 is not covered."
  },
  {
   "property": "C149",
   "status": "proved",
   "theorems": [
    "Verif.C149_clipping_sndr",
    "Verif.C149_clipping_law"
   ],
   "note": "Exact arithmetic, one run, rectangular window, side_bin 0, osr 1. A lower bound on the SNDR."
  },
  {
   "property": "C150",
   "status": "proved",
   "theorems": [
    "Verif.C150_levels",
    "Verif.C150_dnl",
    "Verif.C150_inl",
    "Verif.C150_ideal"
   ],
   "note": "Exact arithmetic; integer codes; bounded input-referred noise. INL bound under the stated minimum code width. The label shift and the scale n/(n-2) are those of C48."
  },
  {
   "property": "C151",
   "status": "proved",
   "theorems": [
    "Verif.C151_symmetric",
    "Verif.C151_offset",
    "Verif.C151_sar"
   ],
   "note": "Exact arithmetic, no noise."
  },
  {
   "property": "C152",
   "status": "proved",
   "theorems": [
    "Verif.C152_dft",
    "Verif.C152_power",
    "Verif.C152_error",
    "Verif.C152_noise",
    "Verif.C152_expected",
    "Verif.C152_sndr",
    "Verif.C152_hd",
    "Verif.C152_thd",
    "Verif.C152_located"
   ],
   "note": "Exact arithmetic; frequency of the decomposition given or found equal to a bin; the spectrum uses one record, rectangular window, side_bin 0 and the whole band. The least squares solver is any that meets the normal equations."
  },
  {
   "property": "C153",
   "status": "proved",
   "theorems": [
    "Verif.C153_codes_unsigned",
    "Verif.C153_codes_signed",
    "Verif.C153_vector",
    "Verif.C153_matrix",
    "Verif.C153_codes_route",
    "Verif.C153_bits_are_values",
    "Verif.C153_full_scale",
    "Verif.C153_failed_calibration",
    "Verif.C153_isolation",
    "Verif.C153_other",
    "Verif.C153_unknown_type",
    "Verif.C153_window",
    "Verif.C153_full_scale_false"
   ],
   "note": "The nine analysis functions are parameters here (wcalsin, plotspec, tomdec, errsin, inlsin, plotphase, perfosr, bitchk and plotwgt have their own properties); drawing, the printed text and the title are not modelled. Codes are exact integers."
  },
  {
   "property": "C154",
   "status": "proved",
   "theorems": [
    "Verif.C154_code_bins",
    "Verif.C154_profile",
    "Verif.C154_in_phase",
    "Verif.C154_inl",
    "Verif.C154_refined"
   ],
   "note": "The explicit bound is for the known coherent frequency without refinement (max_iterations=0); with refinement the constants are existential. Codes at the two ends and codes that never occur are excluded."
  },
  {
   "property": "C155",
   "status": "proved",
   "theorems": [
    "Verif.C155_projection",
    "Verif.C155_static"
   ],
   "note": "The analysed frequency is assumed to be that of the sine (given frequency without refinement, or a refinement that returns it)."
  },
  {
   "property": "C156",
   "status": "proved",
   "theorems": [
    "Verif.C156_spelling",
    "Verif.C156_accepted",
    "Verif.C156_accepts",
    "Verif.C156_split_names",
    "Verif.C156_only_force",
    "Verif.C156_no_default_place",
    "Verif.C156_status_text",
    "Verif.C156_install_then_status",
    "Verif.C156_list"
   ],
   "note": "argparse of Python 3.11 is modelled for this parser; the model was compared with it on 3000 random lines. Usage and error texts and path normalisation are not modelled."
  },
  {
   "property": "C157",
   "status": "proved",
   "theorems": [
    "Verif.C157_white",
    "Verif.C157_correlated"
   ],
   "note": "Stated for the unnormalised output without frequency refinement; the normalised output is the same values divided by the one at lag 0 (C52_values), a random number whose expectation is not taken here."
  },
  {
   "property": "C158",
   "status": "proved",
   "theorems": [
    "Verif.C158_estimates",
    "Verif.C158_amplitude",
    "Verif.C158_relative",
    "Verif.C158_am_noise",
    "Verif.C158_thermal",
    "Verif.C158_jitter",
    "Verif.C158_jitter_radians"
   ],
   "note": "Without frequency refinement. Jitter is treated exactly (sine of the displaced instant), the other noises as additive with a variance that follows the phase."
  },
  {
   "property": "C159",
   "status": "proved",
   "theorems": [
    "Verif.C159_recode",
    "Verif.C159_order",
    "Verif.C159_inverted",
    "Verif.C159_negative_sum",
    "Verif.C159_negative_sum_full"
   ],
   "note": "Recoding is proved for the lite version, on any data; the negative-sum case for both versions on records whose fit is exact and unique."
  },
  {
   "property": "C160",
   "status": "proved",
   "theorems": [
    "Verif.C160_oversampled",
    "Verif.C160_normal"
   ],
   "note": "Rectangular window without side bins; the case osr = 1 is C141."
  },
  {
   "property": "C161",
   "status": "proved",
   "theorems": [
    "Verif.C161_error",
    "Verif.C161_result",
    "Verif.C161_no_side_bins",
    "Verif.C161_side_bins",
    "Verif.C161_noise_metrics",
    "Verif.C161_not_plotspec"
   ],
   "note": "The agreement with plotspec.m is refuted by two concrete spectra (C161_not_plotspec); everything else is proved in full."
  },
  {
   "property": "C162",
   "status": "proved",
   "theorems": [
    "Verif.C162_no_bin_raised",
    "Verif.C162_sndr_sfdr"
   ],
   "note": "With side bins the second part is false (C34_window_leakage_lost): alignment rotates the leakage bins of a windowed carrier independently."
  },
  {
   "property": "C163",
   "status": "proved",
   "theorems": [
    "Verif.C163_expected_spectrum",
    "Verif.C163_flat",
    "Verif.C163_share",
    "Verif.C163_mean_of_runs",
    "Verif.C163_variance",
    "Verif.C163_settles"
   ],
   "note": ""
  },
  {
   "property": "C164",
   "status": "proved",
   "theorems": [
    "Verif.C164_two_stage",
    "Verif.C164_two_stage_exact",
    "Verif.C164_three_stage",
    "Verif.C164_sar",
    "Verif.C164_sar_exact"
   ],
   "note": ""
  },
  {
   "property": "C165",
   "status": "proved",
   "theorems": [
    "Verif.C165_bits",
    "Verif.C165_weights",
    "Verif.C165_not_monotone"
   ],
   "note": "That dout*weights' follows the input, which the script takes for granted, is refuted (C165_weights, C165_not_monotone); the bits themselves are proved right (C165_bits)."
  },
  {
   "property": "C166",
   "status": "proved",
   "theorems": [
    "Verif.C166_two_step",
    "Verif.C166_distortion",
    "Verif.C166_zone",
    "Verif.C166_one_file",
    "Verif.C166_label",
    "Verif.C166_scripts"
   ],
   "note": "C166_scripts evaluates the two file-name failures at the scripts' own values; the other theorems are general."
  },
  {
   "property": "C167",
   "status": "proved",
   "theorems": [
    "Verif.C167_settle_range",
    "Verif.C167_settle_hold",
    "Verif.C167_settle_odd",
    "Verif.C167_settle_linear",
    "Verif.C167_settle_nonlinear",
    "Verif.C167_static",
    "Verif.C167_drift",
    "Verif.C167_am_tone",
    "Verif.C167_clip",
    "Verif.C167_glitch",
    "Verif.C167_name",
    "Verif.C167_name_scripts"
   ],
   "note": "The noise the scripts add last is left out. C167_name_scripts evaluates the file names at the scripts' own values; the other theorems are general."
  },
  {
   "property": "C168",
   "status": "proved",
   "theorems": [
    "Verif.C168_thermal_amplitude",
    "Verif.C168_phase",
    "Verif.C168_comparison"
   ],
   "note": "randn is a family of random variables with the stated moments or law; independence is not needed."
  },
  {
   "property": "C169",
   "status": "proved",
   "theorems": [
    "Verif.C169_same",
    "Verif.C169_default",
    "Verif.C169_raw"
   ],
   "note": "Exact arithmetic. With zero spread both give NaN, `none` in the models. A single sample (MATLAB std 0, numpy NaN) is 0 in both models."
  },
  {
   "property": "C170",
   "status": "proved",
   "theorems": [
    "Verif.C170_pairs",
    "Verif.C170_refused",
    "Verif.C170_gone",
    "Verif.C170_text",
    "Verif.C170_value"
   ],
   "note": "Only the conversion of the arguments; errsin itself is C132. A matrix or handle after 'mode' counts as different from 0."
  },
  {
   "property": "C171",
   "status": "proved",
   "theorems": [
    "Verif.C171_same",
    "Verif.C171_texts",
    "Verif.C171_highlight",
    "Verif.C171_height"
   ],
   "note": "Exact arithmetic. A matrix without rows (NaN in MATLAB) is `none`. Drawing is left out."
  },
  {
   "property": "C172",
   "status": "proved",
   "theorems": [
    "Verif.C172_local",
    "Verif.C172_prefix",
    "Verif.C172_transpose",
    "Verif.C172_auto"
   ],
   "note": "wcalsin and plotspec are parameters, so the theorems hold for any behaviour of theirs that depends on their arguments only. A NaN returned by plotspec without an error counts as a failure. The plot is left out."
  },
  {
   "property": "C173",
   "status": "proved",
   "theorems": [
    "Verif.C173_refused",
    "Verif.C173_priority",
    "Verif.C173_exceptions"
   ],
   "note": "Only the parsing of the five aliased pairs. Logical arguments as 0 and 1 are not distinguished from true and false; kinds of argument the validators refuse are not modelled."
  }
 ]
}