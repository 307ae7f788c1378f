# Axioms each property theorem depends on

Generated by tools/axioms.py from `#print axioms`.

## none (13 theorems)

C03_empty_panics, C03_filters_and_analysers_never_panic, C05_rms, C06_clear_keeps_coefficients, C06_clear_forgets_analysers, C36_setCoefficients_keeps_lastOut, C36_setCoefficients_is_assignment, C36_setCoefficients_reversible, C45_independent, C49_independent, C101_equal_gains, C147_blocks, C147_filters

## propext (11 theorems)

C05_clear_lastOut, C06_clear_forgets_filters, C06_clear_restarts_detectors, C33_oneZero_memory, C33_twoZero_memory, C100_setting_is_free, C113_delay_agrees, C113_block_delay, C118_adapters_empty, C118_exact_hint_would_do, C124_zeros

## Quot.sound (1 theorems)

C113_block_agrees

## Quot.sound, propext (17 theorems)

C01_processBlock_is_steps, C01_processBlock_of_steps, C01_processBlock_fails_iff, C02_partition, C02_block_lengths, C03_nonempty_ok, C04_lastOut_after_process, C04_lastOut_after_block, C04_lastOut_of_new, C06_clear_forgets_rbj, C26_nextOut_announces, C30_biquad2, C37_rbj_setCoefficients_restarts, C100_rbj_memoryless, C113_delay_intact, C113_block_linear, C118_adapters_panic

## Classical.choice, Quot.sound, propext (744 theorems)

C04_linearDelay_of_new, C05_rms_ieee, C05_rms_real, C05_oneZero_false, C05_twoZero_false, C07_new_delay_is_pure_delay, C08_step_refines, C08_delay_refines_shift_register, C09_delay_never_panics, C09_delay_block_never_panics, C09_unguarded_new_false, C10_delay_is_clipped, C10_delay_le_max, C11_setDelay_moves_read_position, C11_taps_show_line, C12_nextOut_predicts, C12_nextOut_delay_zero, C12_nextOut_predicts_iff, C12_false, C13_delay_tapOut_reads_history, C13_linearDelay_tapOut_reads_history, C14_delay_tapIn, C14_linearDelay_tapIn, C15_delay_addTo, C15_linearDelay_addTo, C16_tap_out_of_range, C16_rejection_false, C17_delay_setMaxDelay, C17_linearDelay_setMaxDelay, C18_growth_before_wrap, C18_growth_effect, C18_fresh_growth_delays_more, C18_false_after_wrap, C19_clear_empties_delay, C20_new_interpolates, C20_setDelay_interpolates, C21_setDelay_clips, C21_new_clips, C21_nan_delay_gives_nan, C22_setDelay_terminates, C22_loop_at_most_once, C23_setDelay_integer, C23_integer_delay_agrees, C24_never_panics, C24_never_panics_small, C24_false_for_long_lines, C24_never_panics_real, C25_false_in_f32, C25_output_between, C25_no_overshoot, C25_weights_real, C26_process_after_nextOut, C27_nextOut_only_observes_ieee, C27_nextOut_delay_one_ieee, C27_false_just_above_one, C27_nextOut_only_observes, C27_false_below_one, C28_clear_forgets_samples, C28_pending_value_survives, C28_clear_empties, C28_false_with_pending, C29_new_filters_pass_through, C29_infinity_poisons, C29_infinity_feedforward, C30_onePole, C30_oneZero, C30_twoPole, C30_twoZero, C30_biquad1, C30_cleared_solve_difference_equation, C30_new_solve_difference_equation, C31_forms_agree, C31_false_mid_stream, C32_linear, C32_time_invariant, C32_rbj, C32_rbj_shelves, C34_small_filters_are_biquads, C35_bounded, C35_bounded_gain, C35_silence_decays, C35_sharp, C38_stable, C38_shelves_stable, C39_end_gains, C39_shelf_end_gains, C40_centre_gains, C41_allpass_keeps_amplitude, C42_peak_transparent, C42_shelves_transparent, C43_peak_cancels, C43_shelves_cancel, C44_complementary, C45_alpha_in_range, C45_setAlpha_accepts, C45_setAlpha_rejects, C46_step_between, C46_overflow_not_finite, C46_overflow_nan, C46_never_leaves, C47_step_response, C47_converges, C48_is_onePole, C49_rejects, C49_accepts, C49_real, C49_real_rejects, C50_peak_step, C50_peak, C50_peak_unit, C50_rms, C50_odd_bound_exceeded, C51_peak_rule, C51_rms_rule, C51_peak_between, C51_rms_between, C51_peak_monotone, C51_rms_monotone, C52_sign_ignored, C53_peak_magnitude, C53_rms_magnitude, C53_not_unchanged, C53_rms_extremes, C54_peak_attack, C54_peak_release, C54_rms_attack, C54_rms_release, C54_not_reached, C55_exactly_size_items, C55_values, C56_len, C56_len_false, C57_pointwise, C57_rectangular, C57_empty, C58_symmetric, C58_ieee, C59_blackman_f64, C59_blackman_f32, C59_unit_range, C59_no_amplification, C59_ieee, C60_ends, C60_centre, C60_ieee, C61_odd, C61_even, C61_hamming_false, C61_bartlett_even, C61_overlap_add, C62_one_sample_nan, C62_one_sample_kept, C63_inverse, C64_to_db_floor, C64_to_db_above, C64_to_sample, C64_floors, C65_to_db, C65_to_sample, C66_additive, C67_assertions, C67_special, C68_leaky, C68_peak, C68_rms, C68_clear_recovers, C69_frequency_response, C70_analog_prototypes, C70_analog_shelves, C71_gain_range, C71_shelf_gain_range, C71_resonance_attained, C71_shelf_corner, C72_bounded_iff_stable, C72_decays_iff_stable, C72_cancelled_pole, C73_onePole, C73_oneZero, C73_twoPole, C73_twoZero, C73_biquad1, C73_biquad2, C73_rbj, C73_stable, C74_leaky, C74_peak, C74_rms, C75_delay_complete, C76_delay_new, C76_delay_setMaxDelay, C76_linearDelay_new, C76_linearDelay_setMaxDelay, C77_linearDelay_complete, C77_linearDelay_complete_ieee, C78_setDelay_accurate, C78_new_accurate, C79_silent_where_cosine_is_one, C79_lowPass_silent_f32, C80_diverges_f32, C81_onePole, C81_leaky, C81_peak, C81_rms, C81_denormal, C82_energy, C82_shelf_energy, C82_allPass_lossless, C82_power_complementary, C83_coefficients, C83_tracks, C83_f32, C83_f64, C84_coefficients, C84_peak, C84_shelves, C84_f32, C84_f64, C85_filters, C85_rbj, C85_delay, C85_linearDelay, C85_linearDelay_pending, C86_gain_unique, C86_pass, C86_band, C86_shelf, C86_butterworth, C86_bandwidth, C87_filters, C87_rbj, C87_delays, C87_cascade_commutes, C88_sums, C88_sums_of_squares, C88_sums_lines, C88_rises_to_middle, C89_peak_scales, C89_rms_scales, C89_leaky_scales, C89_peak_forgets, C89_rms_forgets, C89_leaky_forgets, C89_peak_order, C89_rms_order, C89_leaky_order, C89_leaky_not_monotone, C89_peak_not_monotone, C90_filters, C90_rbj, C90_detectors, C90_delay, C90_linearDelay, C90_linearDelay_ieee, C90_sign_of_zero, C90_needs_finite, C91_poles_and_zeros, C91_biquads, C91_needs_b0, C92_delay, C92_delay_reachable, C92_linearDelay, C92_linearDelay_ieee, C92_comb, C92_allpass, C93_phases, C93_peak, C94_onePole, C94_zeros, C94_twoPole, C94_biquads, C94_rbj_rings, C94_rbj_fades, C94_rbj_critical, C94_rbj_quarter, C95_vanishing, C95_vanishing_rbj, C95_series, C95_butterworth_low, C95_butterworth_high, C95_crossover, C95_crossover2, C96_filters, C96_rbj, C96_detectors, C96_rms, C96_underflow, C97_lines, C97_cosine, C97_apply_lines, C97_apply, C97_f32, C97_f64, C98_to_db_fine, C98_to_db, C98_to_sample, C98_there_and_back, C98_back_and_there, C98_gain, C98_f32, C98_f64, C99_gain, C99_time_constant, C99_saturates, C99_peak_stuck, C99_rms_stuck, C99_f32, C99_f64, C100_biquad1, C100_biquad2, C100_small, C100_bounded, C100_one_pole, C100_unstable_switching, C100_forms_differ, C100_lowpass_swept, C100_rbj_setting_not_free, C101_rms_not_below_peak, C101_rms_not_below_peak_new, C101_length_order, C101_peak_gain_order, C101_rms_gain_order, C101_rms_below_peak_ieee, C102_lines, C102_smooth, C102_smooth_attained, C102_sinusoid, C102_alternating, C102_modulated, C102_modulated_smooth, C102_doppler, C103_band_unique, C103_analog, C103_digital_inexact, C103_digital_limit, C104_alpha_not_finite, C104_zero_q, C104_zero_q_late, C104_nan_q, C104_bad_slope, C104_bad_gain, C104_negative_slope, C104_steep_slope, C104_bad_angle, C104_aliases, C104_mirror, C104_mirror_bandPass1, C104_zero_frequency, C104_nyquist_frequency, C104_unstable, C104_unstable_peak, C104_steep_shelves, C104_unstable_shelves, C105_onePole, C105_twoPole, C105_rings, C105_rings_peak, C105_rings_shelves, C105_lowPass_rises, C106_filters, C106_onePole_unstable, C106_leakyIntegrator, C106_rbj, C106_shelves, C106_delays, C107_peak_gain, C107_exists, C107_filters, C107_onePole_unstable, C107_leakyIntegrator, C107_delays, C107_no_headroom, C107_overload, C107_overload_equalisers, C108_comb, C108_allpass, C108_fractional_comb, C109_moving_delay, C109_smooth, C109_click, C109_steady, C110_peak_periodic, C110_rms_periodic, C110_rms_sine, C110_peak_reads_low, C110_peak_sine, C111_spectra, C111_sinusoid, C111_no_leakage, C111_hann_full_length, C112_chain, C112_errors_add, C112_gain_filter, C112_gain_detectors, C112_delays, C112_gain_rbj, C112_metered, C112_crossover_f64, C113_delay_session, C113_linear_agrees, C113_linear_intact, C113_linear_session, C113_linear_session_ieee, C113_linear_stuck, C113_linear_recovers, C113_delay_half_done, C113_block, C114_rbj, C114_gain, C114_filters, C114_delay, C115_exact, C115_power_of_two, C116_delay_gather, C116_linear_gather, C116_delay_scatter, C116_transposed, C116_unheard, C117_biquad1, C117_biquad2, C117_false_second_order, C118_hint_not_exact, C119_complementary, C119_gain_peak, C119_gain_shelves, C119_peak_cancels, C119_shelves_cancel, C119_cancel_f64, C119_complementary_f64, C119_split_lost_f32, C120_shift_unique, C120_unique, C120_rbj, C120_rbj_values, C120_total, C120_shelves, C120_filters, C120_linear_phase, C120_leakyIntegrator, C120_delays, C120_beat, C121_total, C121_gain, C121_constant, C121_triangular, C121_squares, C121_too_few, C121_even, C121_float, C121_float_twice, C121_hann, C121_hann_twice, C121_f32, C121_f64, C122_twoPole, C122_leaky, C122_integrator_unaltered, C122_unaltered, C122_attack_only, C122_release_only, C122_skirts_bandPass1, C122_skirts_bandPass2, C122_q, C123_periodic, C123_rbj, C123_shelves, C123_average, C123_energy, C123_shelf_energy, C123_offset, C123_basic_offset, C123_float, C123_offset_float, C124_count, C124_finite, C124_filters, C124_rbj, C124_analysis, C124_delays, C124_close, C124_silence, C124_stuck, C125_loop, C125_linear_loop, C125_string, C125_linear_string, C125_gain, C125_close, C125_level, C125_cycle, C126_mean, C126_level, C126_averages, C126_rbj_mean, C126_rbj_level, C126_leaky, C126_peak, C126_rms, C127_bartlett, C127_triangular_even, C127_triangular_odd, C127_hann, C127_lines_leak, C127_hann_leaks, C127_zeros, C127_triangular_zeros, C127_signs, C127_sinusoid, C127_sinusoid_leaks, C128_loop, C128_close, C128_cycle, C129_spectrum, C129_bins, C129_ends, C129_leaks, C129_hamming, C129_blackman, C130_blackman, C130_blackman_harris, C130_hann, C130_hamming, C130_bartlett, C130_triangular, C130_sinusoid, C131_delay, C131_linearDelay, C131_range, C131_comb, C131_string, C132_spectrum, C132_lobes, C132_f32, C132_sinusoid, C133_gain_le, C133_filters, C133_half, C133_peak, C133_shelves, C134_tracks, C134_f64, C134_peak, C134_shelves, C134_gain_f64, C135_energy, C135_stable, C135_response, C135_constants, C135_alternating, C135_rbj, C135_shelves, C135_too_much, C135_too_much_alternating, C135_in_tune, C136_eq, C136_laws, C137_equation, C137_lossless, C137_decay, C137_gain, C137_mixers, C137_echo, C138_bounded, C138_close, C138_matrix, C139_onePole, C139_oneZero, C139_twoPole, C139_twoZero, C139_biquad1, C139_biquad2, C139_running_sum, C139_difference, C139_undo, C139_moving_sum, C139_deaf, C139_oscillator, C140_rate, C140_tail, C140_biquads, C140_rbj, C140_peak, C140_shelves, C140_fades, C141_recursive, C141_rbj, C141_feedforward, C141_linear, C141_delay_loop, C141_linear_loop, C142_order, C142_largest_is_worst, C142_step, C142_linear, C142_comb, C142_decibels, C143_filters, C143_reducible, C143_rbj, C143_peak, C143_half_slope, C143_shelves, C143_silence, C143_analysers, C143_lengths, C143_delays, C144_delay_parametric, C144_delay_conversion, C144_formats, C144_analysers, C144_rbj, C144_windows, C145_main_lobe, C145_half_bin, C145_sinusoid, C145_noise, C145_bandwidth, C146_warp, C146_limit, C146_limit_shelves, C146_tenth, C147_delays, C147_windows, C147_util, C147_delay_same, C147_delay_max, C147_linearDelay_same, C147_linearDelay_max, C148_cross, C148_identifies, C148_delays, C148_spectrum, C148_yule_walker, C148_filters, C148_rbj, C148_linear_prediction, C148_allPass, C149_mean, C149_unequal, C149_fluctuation, C149_settles, C149_confidence, C149_filtered, C150_spectrum, C150_half_bin, C150_sinusoid, C150_noise, C150_f32, C151_phases, C151_slopes, C152_power, C152_cross, C152_colour, C152_meters, C152_rbj, C152_f64, C153_rms, C153_response, C153_peak, C153_peak_periodic, C153_rms_periodic, C153_f32, C153_corner, C154_reading, C154_fader, C154_ripple, C154_sine, C154_fader_f64, C154_peak, C154_shelves, C155_delay, C155_linearDelay, C155_response, C155_gain_le, C155_linear_phase, C155_average_gain, C155_average_period, C155_echo, C155_flanger, C155_flanger_gain, C155_notch, C155_headroom, C155_noise, C155_float, C155_float_sine, C155_float_cancel, C156_limiter, C156_transparent, C156_leveller, C156_gain_first, C156_overshoot, C156_lookahead, C156_any_level, C156_levelled, C156_lookahead_float, C157_runs, C157_echoes, C157_reverberation_time, C157_energy, C157_allpass_energy, C157_headroom, C157_float, C157_schroeder, C158_lines, C158_float_line, C158_lowpass, C158_ripple, C158_float, C159_bands, C159_kinds, C159_crossover, C159_float, C159_lines, C159_crossover_lines, C159_float_line, C160_runs, C160_ceiling, C160_reached, C160_quiet, C160_ratio, C160_sine, C160_float, C160_float_ceiling, C161_no_chatter, C161_closes, C161_opens, C161_holds, C161_released, C161_sine, C162_response, C162_notches, C162_centre, C162_float, C163_runs, C163_decibels, C163_range, C163_ends, C163_order, C163_undone, C164_peak, C164_lowShelf, C164_highShelf, C164_equalizer, C164_resolved, C164_f32
