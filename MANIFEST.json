{
 "claims": [
  {
   "property": "C01",
   "status": "proved",
   "theorems": [
    "Rasp.C01_processBlock_is_steps",
    "Rasp.C01_processBlock_of_steps",
    "Rasp.C01_processBlock_fails_iff"
   ],
   "note": ""
  },
  {
   "property": "C02",
   "status": "proved",
   "theorems": [
    "Rasp.C02_partition",
    "Rasp.C02_block_lengths"
   ],
   "note": ""
  },
  {
   "property": "C03",
   "status": "proved",
   "theorems": [
    "Rasp.C03_empty_panics",
    "Rasp.C03_nonempty_ok",
    "Rasp.C03_filters_and_analysers_never_panic"
   ],
   "note": ""
  },
  {
   "property": "C04",
   "status": "proved",
   "theorems": [
    "Rasp.C04_lastOut_after_process",
    "Rasp.C04_lastOut_after_block",
    "Rasp.C04_lastOut_of_new",
    "Rasp.C04_linearDelay_of_new"
   ],
   "note": ""
  },
  {
   "property": "C05",
   "status": "proved",
   "theorems": [
    "Rasp.C05_rms_ieee",
    "Rasp.C05_clear_lastOut",
    "Rasp.C05_rms",
    "Rasp.C05_rms_real",
    "Rasp.C05_oneZero_false",
    "Rasp.C05_twoZero_false"
   ],
   "note": "The documented claim is refuted for OneZero and TwoZero (C05_oneZero_false, C05_twoZero_false) and proved for every other type."
  },
  {
   "property": "C06",
   "status": "proved",
   "theorems": [
    "Rasp.C06_clear_forgets_filters",
    "Rasp.C06_clear_keeps_coefficients",
    "Rasp.C06_clear_forgets_rbj",
    "Rasp.C06_clear_forgets_analysers",
    "Rasp.C06_clear_restarts_detectors"
   ],
   "note": ""
  },
  {
   "property": "C07",
   "status": "proved",
   "theorems": [
    "Rasp.C07_new_delay_is_pure_delay"
   ],
   "note": ""
  },
  {
   "property": "C08",
   "status": "proved",
   "theorems": [
    "Rasp.C08_step_refines",
    "Rasp.C08_delay_refines_shift_register"
   ],
   "note": ""
  },
  {
   "property": "C09",
   "status": "proved",
   "theorems": [
    "Rasp.C09_delay_never_panics",
    "Rasp.C09_delay_block_never_panics",
    "Rasp.C09_unguarded_new_false"
   ],
   "note": ""
  },
  {
   "property": "C10",
   "status": "proved",
   "theorems": [
    "Rasp.C10_delay_is_clipped",
    "Rasp.C10_delay_le_max"
   ],
   "note": ""
  },
  {
   "property": "C11",
   "status": "proved",
   "theorems": [
    "Rasp.C11_setDelay_moves_read_position",
    "Rasp.C11_taps_show_line"
   ],
   "note": ""
  },
  {
   "property": "C12",
   "status": "proved",
   "theorems": [
    "Rasp.C12_nextOut_predicts",
    "Rasp.C12_nextOut_delay_zero",
    "Rasp.C12_nextOut_predicts_iff",
    "Rasp.C12_false"
   ],
   "note": "Exactly for delay >= 1; refuted at delay 0."
  },
  {
   "property": "C13",
   "status": "proved",
   "theorems": [
    "Rasp.C13_delay_tapOut_reads_history",
    "Rasp.C13_linearDelay_tapOut_reads_history"
   ],
   "note": ""
  },
  {
   "property": "C14",
   "status": "proved",
   "theorems": [
    "Rasp.C14_delay_tapIn",
    "Rasp.C14_linearDelay_tapIn"
   ],
   "note": ""
  },
  {
   "property": "C15",
   "status": "proved",
   "theorems": [
    "Rasp.C15_delay_addTo",
    "Rasp.C15_linearDelay_addTo"
   ],
   "note": ""
  },
  {
   "property": "C16",
   "status": "proved",
   "theorems": [
    "Rasp.C16_tap_out_of_range",
    "Rasp.C16_rejection_false"
   ],
   "note": "Rejection refuted; the exact behaviour for every out-of-range argument is proved."
  },
  {
   "property": "C17",
   "status": "proved",
   "theorems": [
    "Rasp.C17_delay_setMaxDelay",
    "Rasp.C17_linearDelay_setMaxDelay"
   ],
   "note": ""
  },
  {
   "property": "C18",
   "status": "proved",
   "theorems": [
    "Rasp.C18_growth_before_wrap",
    "Rasp.C18_growth_effect",
    "Rasp.C18_fresh_growth_delays_more",
    "Rasp.C18_false_after_wrap"
   ],
   "note": "Holds when get_delay <= processed samples <= old maximum; refuted on fresh lines and after wrapping; exact effect proved for the first growth after any history."
  },
  {
   "property": "C19",
   "status": "proved",
   "theorems": [
    "Rasp.C19_clear_empties_delay"
   ],
   "note": "Histories with growth are covered by C75."
  },
  {
   "property": "C20",
   "status": "proved",
   "theorems": [
    "Rasp.C20_new_interpolates",
    "Rasp.C20_setDelay_interpolates"
   ],
   "note": ""
  },
  {
   "property": "C21",
   "status": "proved",
   "theorems": [
    "Rasp.C21_setDelay_clips",
    "Rasp.C21_new_clips",
    "Rasp.C21_nan_delay_gives_nan"
   ],
   "note": "NaN stays NaN and makes every output NaN; proved."
  },
  {
   "property": "C22",
   "status": "proved",
   "theorems": [
    "Rasp.C22_setDelay_terminates",
    "Rasp.C22_loop_at_most_once"
   ],
   "note": ""
  },
  {
   "property": "C23",
   "status": "proved",
   "theorems": [
    "Rasp.C23_setDelay_integer",
    "Rasp.C23_integer_delay_agrees"
   ],
   "note": ""
  },
  {
   "property": "C24",
   "status": "proved",
   "theorems": [
    "Rasp.C24_never_panics",
    "Rasp.C24_never_panics_small",
    "Rasp.C24_false_for_long_lines",
    "Rasp.C24_never_panics_real"
   ],
   "note": "Proved whenever the number of slots is an f32 value (in particular up to 2^24); refuted for 2^24+3 slots."
  },
  {
   "property": "C25",
   "status": "proved",
   "theorems": [
    "Rasp.C25_false_in_f32",
    "Rasp.C25_output_between",
    "Rasp.C25_no_overshoot",
    "Rasp.C25_weights_real"
   ],
   "note": "Proved in exact arithmetic; refuted in f32."
  },
  {
   "property": "C26",
   "status": "proved",
   "theorems": [
    "Rasp.C26_nextOut_announces",
    "Rasp.C26_process_after_nextOut"
   ],
   "note": ""
  },
  {
   "property": "C27",
   "status": "proved",
   "theorems": [
    "Rasp.C27_nextOut_only_observes_ieee",
    "Rasp.C27_nextOut_delay_one_ieee",
    "Rasp.C27_false_just_above_one",
    "Rasp.C27_nextOut_only_observes",
    "Rasp.C27_false_below_one"
   ],
   "note": "Exact arithmetic for delay >= 1; IEEE for delay >= 2 (bit for bit) and for delay 1 (finite samples, up to the sign of zero); refuted below 1 and in f32 just above 1."
  },
  {
   "property": "C28",
   "status": "proved",
   "theorems": [
    "Rasp.C28_clear_forgets_samples",
    "Rasp.C28_pending_value_survives",
    "Rasp.C28_clear_empties",
    "Rasp.C28_false_with_pending"
   ],
   "note": "Any arithmetic as a two-run property (growth included), plus the closed form in exact arithmetic; refuted with a pending next_out."
  },
  {
   "property": "C29",
   "status": "proved",
   "theorems": [
    "Rasp.C29_new_filters_pass_through",
    "Rasp.C29_infinity_poisons",
    "Rasp.C29_infinity_feedforward"
   ],
   "note": "IEEE, every format and math library; after an infinity or NaN the recursive types return NaN forever (proved), the feedforward ones for one or two samples."
  },
  {
   "property": "C30",
   "status": "proved",
   "theorems": [
    "Rasp.C30_onePole",
    "Rasp.C30_oneZero",
    "Rasp.C30_twoPole",
    "Rasp.C30_twoZero",
    "Rasp.C30_biquad1",
    "Rasp.C30_biquad2",
    "Rasp.C30_cleared_solve_difference_equation",
    "Rasp.C30_new_solve_difference_equation"
   ],
   "note": ""
  },
  {
   "property": "C31",
   "status": "proved",
   "theorems": [
    "Rasp.C31_forms_agree",
    "Rasp.C31_false_mid_stream"
   ],
   "note": "Exact arithmetic; refuted for coefficient changes mid-stream."
  },
  {
   "property": "C32",
   "status": "proved",
   "theorems": [
    "Rasp.C32_linear",
    "Rasp.C32_time_invariant",
    "Rasp.C32_rbj",
    "Rasp.C32_rbj_shelves"
   ],
   "note": ""
  },
  {
   "property": "C33",
   "status": "proved",
   "theorems": [
    "Rasp.C33_oneZero_memory",
    "Rasp.C33_twoZero_memory"
   ],
   "note": ""
  },
  {
   "property": "C34",
   "status": "proved",
   "theorems": [
    "Rasp.C34_small_filters_are_biquads"
   ],
   "note": ""
  },
  {
   "property": "C35",
   "status": "proved",
   "theorems": [
    "Rasp.C35_bounded",
    "Rasp.C35_bounded_gain",
    "Rasp.C35_silence_decays",
    "Rasp.C35_sharp"
   ],
   "note": ""
  },
  {
   "property": "C36",
   "status": "proved",
   "theorems": [
    "Rasp.C36_setCoefficients_keeps_lastOut",
    "Rasp.C36_setCoefficients_is_assignment",
    "Rasp.C36_setCoefficients_reversible"
   ],
   "note": ""
  },
  {
   "property": "C37",
   "status": "proved",
   "theorems": [
    "Rasp.C37_rbj_setCoefficients_restarts"
   ],
   "note": ""
  },
  {
   "property": "C38",
   "status": "proved",
   "theorems": [
    "Rasp.C38_stable",
    "Rasp.C38_shelves_stable"
   ],
   "note": ""
  },
  {
   "property": "C39",
   "status": "proved",
   "theorems": [
    "Rasp.C39_end_gains",
    "Rasp.C39_shelf_end_gains"
   ],
   "note": ""
  },
  {
   "property": "C40",
   "status": "proved",
   "theorems": [
    "Rasp.C40_centre_gains"
   ],
   "note": ""
  },
  {
   "property": "C41",
   "status": "proved",
   "theorems": [
    "Rasp.C41_allpass_keeps_amplitude"
   ],
   "note": ""
  },
  {
   "property": "C42",
   "status": "proved",
   "theorems": [
    "Rasp.C42_peak_transparent",
    "Rasp.C42_shelves_transparent"
   ],
   "note": ""
  },
  {
   "property": "C43",
   "status": "proved",
   "theorems": [
    "Rasp.C43_peak_cancels",
    "Rasp.C43_shelves_cancel"
   ],
   "note": ""
  },
  {
   "property": "C44",
   "status": "proved",
   "theorems": [
    "Rasp.C44_complementary"
   ],
   "note": ""
  },
  {
   "property": "C45",
   "status": "proved",
   "theorems": [
    "Rasp.C45_alpha_in_range",
    "Rasp.C45_setAlpha_accepts",
    "Rasp.C45_setAlpha_rejects",
    "Rasp.C45_independent"
   ],
   "note": ""
  },
  {
   "property": "C46",
   "status": "proved",
   "theorems": [
    "Rasp.C46_step_between",
    "Rasp.C46_overflow_not_finite",
    "Rasp.C46_overflow_nan",
    "Rasp.C46_never_leaves"
   ],
   "note": "IEEE, every format; the overflow condition is shown necessary (C46_overflow_not_finite, C46_overflow_nan)."
  },
  {
   "property": "C47",
   "status": "proved",
   "theorems": [
    "Rasp.C47_step_response",
    "Rasp.C47_converges"
   ],
   "note": ""
  },
  {
   "property": "C48",
   "status": "proved",
   "theorems": [
    "Rasp.C48_is_onePole"
   ],
   "note": ""
  },
  {
   "property": "C49",
   "status": "proved",
   "theorems": [
    "Rasp.C49_rejects",
    "Rasp.C49_accepts",
    "Rasp.C49_independent",
    "Rasp.C49_real",
    "Rasp.C49_real_rejects"
   ],
   "note": ""
  },
  {
   "property": "C50",
   "status": "proved",
   "theorems": [
    "Rasp.C50_peak_step",
    "Rasp.C50_peak",
    "Rasp.C50_peak_unit",
    "Rasp.C50_rms",
    "Rasp.C50_odd_bound_exceeded"
   ],
   "note": "IEEE. The gains stored by the setters come from the platform's exp, so the history theorems assume that exp maps arguments with the sign bit set into [0,1] (ExpUnit, satisfied by a correctly rounded exp); the step theorem needs only gains in [0,1]. Odd bounds are refuted."
  },
  {
   "property": "C51",
   "status": "proved",
   "theorems": [
    "Rasp.C51_peak_rule",
    "Rasp.C51_rms_rule",
    "Rasp.C51_peak_between",
    "Rasp.C51_rms_between",
    "Rasp.C51_peak_monotone",
    "Rasp.C51_rms_monotone"
   ],
   "note": ""
  },
  {
   "property": "C52",
   "status": "proved",
   "theorems": [
    "Rasp.C52_sign_ignored"
   ],
   "note": ""
  },
  {
   "property": "C53",
   "status": "proved",
   "theorems": [
    "Rasp.C53_peak_magnitude",
    "Rasp.C53_rms_magnitude",
    "Rasp.C53_not_unchanged",
    "Rasp.C53_rms_extremes"
   ],
   "note": "Documented claim refuted; exact behaviour proved, including where RMS fails to return even the magnitude."
  },
  {
   "property": "C54",
   "status": "proved",
   "theorems": [
    "Rasp.C54_peak_attack",
    "Rasp.C54_peak_release",
    "Rasp.C54_rms_attack",
    "Rasp.C54_rms_release",
    "Rasp.C54_not_reached"
   ],
   "note": "Documented claim refuted (C54_not_reached); exact law proved for both detectors and both directions."
  },
  {
   "property": "C55",
   "status": "proved",
   "theorems": [
    "Rasp.C55_exactly_size_items",
    "Rasp.C55_values"
   ],
   "note": ""
  },
  {
   "property": "C56",
   "status": "proved",
   "theorems": [
    "Rasp.C56_len",
    "Rasp.C56_len_false"
   ],
   "note": "Refuted; the exact value of len at all times is proved, and that it is right only before the first next."
  },
  {
   "property": "C57",
   "status": "proved",
   "theorems": [
    "Rasp.C57_pointwise",
    "Rasp.C57_rectangular",
    "Rasp.C57_empty"
   ],
   "note": ""
  },
  {
   "property": "C58",
   "status": "proved",
   "theorems": [
    "Rasp.C58_symmetric",
    "Rasp.C58_ieee"
   ],
   "note": "All six in exact arithmetic; Triangular and Bartlett bit for bit in IEEE arithmetic up to 2^24 (f32) / 2^53 (f64) points."
  },
  {
   "property": "C59",
   "status": "proved",
   "theorems": [
    "Rasp.C59_blackman_f64",
    "Rasp.C59_blackman_f32",
    "Rasp.C59_unit_range",
    "Rasp.C59_no_amplification",
    "Rasp.C59_ieee"
   ],
   "note": "Exact arithmetic for all six; also in IEEE arithmetic for Triangular and Bartlett, and for Hann and Hamming if cos stays in [-1,1]. In f32 and f64 the first Blackman value is slightly negative (proved, assuming cos 0 = 1)."
  },
  {
   "property": "C60",
   "status": "proved",
   "theorems": [
    "Rasp.C60_ends",
    "Rasp.C60_centre",
    "Rasp.C60_ieee"
   ],
   "note": "Exact arithmetic; Bartlett ends and Bartlett/Triangular centres also in IEEE arithmetic."
  },
  {
   "property": "C61",
   "status": "proved",
   "theorems": [
    "Rasp.C61_odd",
    "Rasp.C61_even",
    "Rasp.C61_hamming_false",
    "Rasp.C61_bartlett_even",
    "Rasp.C61_overlap_add"
   ],
   "note": "Proved with exact sizes and hops, also as overlap-add at every time; refuted for Hamming (1.08) and for Bartlett of even size."
  },
  {
   "property": "C62",
   "status": "proved",
   "theorems": [
    "Rasp.C62_one_sample_nan",
    "Rasp.C62_one_sample_kept"
   ],
   "note": "Refuted for five windows (Bartlett unconditionally, the others if cos of NaN is NaN); Triangular and Rectangular keep the sample."
  },
  {
   "property": "C63",
   "status": "proved",
   "theorems": [
    "Rasp.C63_inverse"
   ],
   "note": ""
  },
  {
   "property": "C64",
   "status": "proved",
   "theorems": [
    "Rasp.C64_to_db_floor",
    "Rasp.C64_to_db_above",
    "Rasp.C64_to_sample",
    "Rasp.C64_floors"
   ],
   "note": "IEEE; formats with 7 to 53 bits, in particular f32 and f64."
  },
  {
   "property": "C65",
   "status": "proved",
   "theorems": [
    "Rasp.C65_to_db",
    "Rasp.C65_to_sample"
   ],
   "note": ""
  },
  {
   "property": "C66",
   "status": "proved",
   "theorems": [
    "Rasp.C66_additive"
   ],
   "note": ""
  },
  {
   "property": "C67",
   "status": "proved",
   "theorems": [
    "Rasp.C67_assertions",
    "Rasp.C67_special"
   ],
   "note": ""
  },
  {
   "property": "C68",
   "status": "proved",
   "theorems": [
    "Rasp.C68_leaky",
    "Rasp.C68_peak",
    "Rasp.C68_rms",
    "Rasp.C68_clear_recovers"
   ],
   "note": "The detector theorems assume ExpUnit as in C50."
  },
  {
   "property": "C69",
   "status": "proved",
   "theorems": [
    "Rasp.C69_frequency_response"
   ],
   "note": ""
  },
  {
   "property": "C70",
   "status": "proved",
   "theorems": [
    "Rasp.C70_analog_prototypes",
    "Rasp.C70_analog_shelves"
   ],
   "note": "Nyquist itself (cos(w/2)=0) is covered by C39 and C71."
  },
  {
   "property": "C71",
   "status": "proved",
   "theorems": [
    "Rasp.C71_gain_range",
    "Rasp.C71_shelf_gain_range",
    "Rasp.C71_resonance_attained",
    "Rasp.C71_shelf_corner"
   ],
   "note": ""
  },
  {
   "property": "C72",
   "status": "proved",
   "theorems": [
    "Rasp.C72_bounded_iff_stable",
    "Rasp.C72_decays_iff_stable",
    "Rasp.C72_cancelled_pole"
   ],
   "note": "The condition on cancelled poles is shown to be needed (C72_cancelled_pole)."
  },
  {
   "property": "C73",
   "status": "proved",
   "theorems": [
    "Rasp.C73_onePole",
    "Rasp.C73_oneZero",
    "Rasp.C73_twoPole",
    "Rasp.C73_twoZero",
    "Rasp.C73_biquad1",
    "Rasp.C73_biquad2",
    "Rasp.C73_rbj",
    "Rasp.C73_stable"
   ],
   "note": "Error bounds are explicit but not tight. The coefficients are those stored in the filter; errors made when an rbj filter computes them from its parameters are not included."
  },
  {
   "property": "C74",
   "status": "proved",
   "theorems": [
    "Rasp.C74_leaky",
    "Rasp.C74_peak",
    "Rasp.C74_rms"
   ],
   "note": "Gains of exactly 1 (possible when exp rounds up for very long times) are excluded."
  },
  {
   "property": "C75",
   "status": "proved",
   "theorems": [
    "Rasp.C75_delay_complete"
   ],
   "note": "Assumes maxima that Vec can allocate (other arguments: C76) and a sample size of at least 4 bytes."
  },
  {
   "property": "C76",
   "status": "proved",
   "theorems": [
    "Rasp.C76_delay_new",
    "Rasp.C76_delay_setMaxDelay",
    "Rasp.C76_linearDelay_new",
    "Rasp.C76_linearDelay_setMaxDelay"
   ],
   "note": "Heap exhaustion below Vec's capacity limit is not modelled."
  },
  {
   "property": "C77",
   "status": "proved",
   "theorems": [
    "Rasp.C77_linearDelay_complete",
    "Rasp.C77_linearDelay_complete_ieee"
   ],
   "note": "In IEEE arithmetic for lines of at most 2^24 slots; longer lines can panic (C24)."
  },
  {
   "property": "C78",
   "status": "proved",
   "theorems": [
    "Rasp.C78_setDelay_accurate",
    "Rasp.C78_new_accurate"
   ],
   "note": "The constants are explicit but not tight."
  },
  {
   "property": "C79",
   "status": "proved",
   "theorems": [
    "Rasp.C79_silent_where_cosine_is_one",
    "Rasp.C79_lowPass_silent_f32"
   ],
   "note": "The f32 part assumes SmallAngle (accurate cos and sin of small angles), met by correctly rounding libraries."
  },
  {
   "property": "C80",
   "status": "proved",
   "theorems": [
    "Rasp.C80_diverges_f32"
   ],
   "note": "One parameter set and one stream, as a counterexample to stability; the run is evaluated by the kernel. Assumes SmallAngle."
  },
  {
   "property": "C81",
   "status": "proved",
   "theorems": [
    "Rasp.C81_onePole",
    "Rasp.C81_leaky",
    "Rasp.C81_peak",
    "Rasp.C81_rms",
    "Rasp.C81_denormal"
   ],
   "note": "Gains are the stored ones; how they come from times is C54."
  },
  {
   "property": "C82",
   "status": "proved",
   "theorems": [
    "Rasp.C82_energy",
    "Rasp.C82_shelf_energy",
    "Rasp.C82_allPass_lossless",
    "Rasp.C82_power_complementary"
   ],
   "note": "Exact arithmetic; starting from rest, which every setter establishes."
  },
  {
   "property": "C83",
   "status": "proved",
   "theorems": [
    "Rasp.C83_coefficients",
    "Rasp.C83_tracks",
    "Rasp.C83_f32",
    "Rasp.C83_f64"
   ],
   "note": "Peak and the shelves are in C84. The constants are explicit but not tight. AccurateTrig is met by correctly rounding libraries (k = 2)."
  },
  {
   "property": "C84",
   "status": "proved",
   "theorems": [
    "Rasp.C84_coefficients",
    "Rasp.C84_peak",
    "Rasp.C84_shelves",
    "Rasp.C84_f32",
    "Rasp.C84_f64"
   ],
   "note": "The constants are explicit but not tight. AccurateTrig and AccuratePow are met by correctly rounding libraries (k = 2)."
  },
  {
   "property": "C85",
   "status": "proved",
   "theorems": [
    "Rasp.C85_filters",
    "Rasp.C85_rbj",
    "Rasp.C85_delay",
    "Rasp.C85_linearDelay",
    "Rasp.C85_linearDelay_pending"
   ],
   "note": "Inverts also says that the opposite stream causes no panic when the original one caused none. The detectors are even instead: C52."
  },
  {
   "property": "C86",
   "status": "proved",
   "theorems": [
    "Rasp.C86_gain_unique",
    "Rasp.C86_pass",
    "Rasp.C86_band",
    "Rasp.C86_shelf",
    "Rasp.C86_butterworth",
    "Rasp.C86_bandwidth"
   ],
   "note": "Rises and Falls assert that a gain exists at every angle of the interval; C86_gain_unique says it is the only one."
  },
  {
   "property": "C87",
   "status": "proved",
   "theorems": [
    "Rasp.C87_filters",
    "Rasp.C87_rbj",
    "Rasp.C87_delays",
    "Rasp.C87_cascade_commutes"
   ],
   "note": "Cascade: the output stream of one processor is the input stream of the next."
  },
  {
   "property": "C88",
   "status": "proved",
   "theorems": [
    "Rasp.C88_sums",
    "Rasp.C88_sums_of_squares",
    "Rasp.C88_sums_lines",
    "Rasp.C88_rises_to_middle"
   ],
   "note": "The lower bounds on n are needed: an example shows the two-point Hamming window."
  },
  {
   "property": "C89",
   "status": "proved",
   "theorems": [
    "Rasp.C89_peak_scales",
    "Rasp.C89_rms_scales",
    "Rasp.C89_leaky_scales",
    "Rasp.C89_peak_forgets",
    "Rasp.C89_rms_forgets",
    "Rasp.C89_leaky_forgets",
    "Rasp.C89_peak_order",
    "Rasp.C89_rms_order",
    "Rasp.C89_leaky_order",
    "Rasp.C89_leaky_not_monotone",
    "Rasp.C89_peak_not_monotone"
   ],
   "note": "The detector counterexample fixes the gain field directly, since which gains set_release can produce depends on the platform's exp; the integrator one is reached through the public interface."
  },
  {
   "property": "C90",
   "status": "proved",
   "theorems": [
    "Rasp.C90_filters",
    "Rasp.C90_rbj",
    "Rasp.C90_detectors",
    "Rasp.C90_delay",
    "Rasp.C90_linearDelay",
    "Rasp.C90_linearDelay_ieee",
    "Rasp.C90_sign_of_zero",
    "Rasp.C90_needs_finite"
   ],
   "note": "Finite coefficients are needed (C90_needs_finite). C90_sign_of_zero shows why zeros are compared without their sign."
  },
  {
   "property": "C91",
   "status": "proved",
   "theorems": [
    "Rasp.C91_poles_and_zeros",
    "Rasp.C91_biquads",
    "Rasp.C91_needs_b0"
   ],
   "note": "Exact arithmetic only: with rounding the inverse is not exact. Nothing is said about stability of the inverse."
  },
  {
   "property": "C92",
   "status": "proved",
   "theorems": [
    "Rasp.C92_delay",
    "Rasp.C92_delay_reachable",
    "Rasp.C92_linearDelay",
    "Rasp.C92_linearDelay_ieee",
    "Rasp.C92_comb",
    "Rasp.C92_allpass"
   ],
   "note": "The loop is user code around the two methods, written down as a relation; the crate itself contains no such loop. LinearDelay with delays between 1 and 2 in IEEE arithmetic is left out, as in C27."
  },
  {
   "property": "C93",
   "status": "proved",
   "theorems": [
    "Rasp.C93_phases",
    "Rasp.C93_peak"
   ],
   "note": "Shelving filters are left out here (their gains are C40-C42, C86)."
  },
  {
   "property": "C94",
   "status": "proved",
   "theorems": [
    "Rasp.C94_onePole",
    "Rasp.C94_zeros",
    "Rasp.C94_twoPole",
    "Rasp.C94_biquads",
    "Rasp.C94_rbj_rings",
    "Rasp.C94_rbj_fades",
    "Rasp.C94_rbj_critical",
    "Rasp.C94_rbj_quarter"
   ],
   "note": "At q = 1/2 the centre at exactly a quarter of the sample rate (both poles at 0, a finite answer) is excluded. rbj set_coefficients clears the past (modelled so), so the claim holds for every previous state."
  },
  {
   "property": "C95",
   "status": "proved",
   "theorems": [
    "Rasp.C95_vanishing",
    "Rasp.C95_vanishing_rbj",
    "Rasp.C95_series",
    "Rasp.C95_butterworth_low",
    "Rasp.C95_butterworth_high",
    "Rasp.C95_crossover",
    "Rasp.C95_crossover2"
   ],
   "note": "Chains are lists of arbitrary processors (Spec/Series.lean); the crate has no chain type, the theorem is about calling process of each in turn on whole streams."
  },
  {
   "property": "C96",
   "status": "proved",
   "theorems": [
    "Rasp.C96_filters",
    "Rasp.C96_rbj",
    "Rasp.C96_detectors",
    "Rasp.C96_rms",
    "Rasp.C96_underflow"
   ],
   "note": "Overflow anywhere makes the affected outputs non-finite, so the conclusion only speaks about finite outputs. The converse direction, turning down, is the same statement read from the louder to the quieter stream."
  },
  {
   "property": "C97",
   "status": "proved",
   "theorems": [
    "Rasp.C97_lines",
    "Rasp.C97_cosine",
    "Rasp.C97_apply_lines",
    "Rasp.C97_apply",
    "Rasp.C97_f32",
    "Rasp.C97_f64"
   ],
   "note": "AccurateCos is an assumption about the platform; it is met by a correctly rounded cosine (Libm.roundedCos_accurate). Size 1 is C62, where the value is NaN."
  },
  {
   "property": "C98",
   "status": "proved",
   "theorems": [
    "Rasp.C98_to_db_fine",
    "Rasp.C98_to_db",
    "Rasp.C98_to_sample",
    "Rasp.C98_there_and_back",
    "Rasp.C98_back_and_there",
    "Rasp.C98_gain",
    "Rasp.C98_f32",
    "Rasp.C98_f64"
   ],
   "note": "AccurateDb is an assumption about the platform; it is met by correctly rounded log10 and powf (Libm.roundedDb_accurate). An amplitude between the rounded constant and 1e-6 takes the logarithm branch and still is within the bound of -120."
  },
  {
   "property": "C99",
   "status": "proved",
   "theorems": [
    "Rasp.C99_gain",
    "Rasp.C99_time_constant",
    "Rasp.C99_saturates",
    "Rasp.C99_peak_stuck",
    "Rasp.C99_rms_stuck",
    "Rasp.C99_f32",
    "Rasp.C99_f64"
   ],
   "note": "AccurateExp and RoundedExp are assumptions about the platform, met by a correctly rounded exp (Libm.roundedExp_accurate, Libm.roundedExp_rounded)."
  },
  {
   "property": "C100",
   "status": "proved",
   "theorems": [
    "Rasp.C100_biquad1",
    "Rasp.C100_biquad2",
    "Rasp.C100_small",
    "Rasp.C100_bounded",
    "Rasp.C100_one_pole",
    "Rasp.C100_unstable_switching",
    "Rasp.C100_forms_differ",
    "Rasp.C100_setting_is_free",
    "Rasp.C100_rbj_memoryless",
    "Rasp.C100_lowpass_swept",
    "Rasp.C100_rbj_setting_not_free"
   ],
   "note": "The clearing setter is what the code does (C37); C100_rbj_setting_not_free shows it is audible."
  },
  {
   "property": "C101",
   "status": "proved",
   "theorems": [
    "Rasp.C101_equal_gains",
    "Rasp.C101_rms_not_below_peak",
    "Rasp.C101_rms_not_below_peak_new",
    "Rasp.C101_length_order",
    "Rasp.C101_peak_gain_order",
    "Rasp.C101_rms_gain_order",
    "Rasp.C101_rms_below_peak_ieee"
   ],
   "note": "The notes in src/analysis/mod.rs say that an envelope detector is not just a leaky integrator; with equal gains it is one."
  },
  {
   "property": "C102",
   "status": "proved",
   "theorems": [
    "Rasp.C102_lines",
    "Rasp.C102_smooth",
    "Rasp.C102_smooth_attained",
    "Rasp.C102_sinusoid",
    "Rasp.C102_alternating",
    "Rasp.C102_modulated",
    "Rasp.C102_modulated_smooth",
    "Rasp.C102_doppler"
   ],
   "note": ""
  },
  {
   "property": "C103",
   "status": "proved",
   "theorems": [
    "Rasp.C103_band_unique",
    "Rasp.C103_analog",
    "Rasp.C103_digital_inexact",
    "Rasp.C103_digital_limit"
   ],
   "note": "The digital formula of the comment is an approximation; what the code does is what the analog formula says on the tan(w/2) scale."
  },
  {
   "property": "C104",
   "status": "proved",
   "theorems": [
    "Rasp.C104_alpha_not_finite",
    "Rasp.C104_zero_q",
    "Rasp.C104_zero_q_late",
    "Rasp.C104_nan_q",
    "Rasp.C104_bad_slope",
    "Rasp.C104_bad_gain",
    "Rasp.C104_negative_slope",
    "Rasp.C104_steep_slope",
    "Rasp.C104_bad_angle",
    "Rasp.C104_aliases",
    "Rasp.C104_mirror",
    "Rasp.C104_mirror_bandPass1",
    "Rasp.C104_zero_frequency",
    "Rasp.C104_nyquist_frequency",
    "Rasp.C104_unstable",
    "Rasp.C104_unstable_peak",
    "Rasp.C104_steep_shelves",
    "Rasp.C104_unstable_shelves"
   ],
   "note": "No parameter is rejected by the code."
  },
  {
   "property": "C105",
   "status": "proved",
   "theorems": [
    "Rasp.C105_onePole",
    "Rasp.C105_twoPole",
    "Rasp.C105_rings",
    "Rasp.C105_rings_peak",
    "Rasp.C105_rings_shelves",
    "Rasp.C105_lowPass_rises"
   ],
   "note": ""
  },
  {
   "property": "C106",
   "status": "proved",
   "theorems": [
    "Rasp.C106_filters",
    "Rasp.C106_onePole_unstable",
    "Rasp.C106_leakyIntegrator",
    "Rasp.C106_rbj",
    "Rasp.C106_shelves",
    "Rasp.C106_delays"
   ],
   "note": ""
  },
  {
   "property": "C107",
   "status": "proved",
   "theorems": [
    "Rasp.C107_peak_gain",
    "Rasp.C107_exists",
    "Rasp.C107_filters",
    "Rasp.C107_onePole_unstable",
    "Rasp.C107_leakyIntegrator",
    "Rasp.C107_delays",
    "Rasp.C107_no_headroom",
    "Rasp.C107_overload",
    "Rasp.C107_overload_equalisers"
   ],
   "note": ""
  },
  {
   "property": "C108",
   "status": "proved",
   "theorems": [
    "Rasp.C108_comb",
    "Rasp.C108_allpass",
    "Rasp.C108_fractional_comb"
   ],
   "note": ""
  },
  {
   "property": "C109",
   "status": "proved",
   "theorems": [
    "Rasp.C109_moving_delay",
    "Rasp.C109_smooth",
    "Rasp.C109_click",
    "Rasp.C109_steady"
   ],
   "note": ""
  },
  {
   "property": "C110",
   "status": "proved",
   "theorems": [
    "Rasp.C110_peak_periodic",
    "Rasp.C110_rms_periodic",
    "Rasp.C110_rms_sine",
    "Rasp.C110_peak_reads_low",
    "Rasp.C110_peak_sine"
   ],
   "note": ""
  },
  {
   "property": "C111",
   "status": "proved",
   "theorems": [
    "Rasp.C111_spectra",
    "Rasp.C111_sinusoid",
    "Rasp.C111_no_leakage",
    "Rasp.C111_hann_full_length"
   ],
   "note": ""
  },
  {
   "property": "C112",
   "status": "proved",
   "theorems": [
    "Rasp.C112_chain",
    "Rasp.C112_errors_add",
    "Rasp.C112_gain_filter",
    "Rasp.C112_gain_detectors",
    "Rasp.C112_delays",
    "Rasp.C112_gain_rbj",
    "Rasp.C112_metered",
    "Rasp.C112_crossover_f64"
   ],
   "note": ""
  },
  {
   "property": "C113",
   "status": "proved",
   "theorems": [
    "Rasp.C113_delay_agrees",
    "Rasp.C113_delay_intact",
    "Rasp.C113_delay_session",
    "Rasp.C113_linear_agrees",
    "Rasp.C113_linear_intact",
    "Rasp.C113_linear_session",
    "Rasp.C113_linear_session_ieee",
    "Rasp.C113_linear_stuck",
    "Rasp.C113_linear_recovers",
    "Rasp.C113_delay_half_done",
    "Rasp.C113_block_agrees",
    "Rasp.C113_block",
    "Rasp.C113_block_delay",
    "Rasp.C113_block_linear"
   ],
   "note": ""
  },
  {
   "property": "C114",
   "status": "proved",
   "theorems": [
    "Rasp.C114_rbj",
    "Rasp.C114_gain",
    "Rasp.C114_filters",
    "Rasp.C114_delay"
   ],
   "note": "Exact arithmetic for the rbj types because their coefficients need cos(pi - w) = -cos w, which no float library guarantees; the basic filters and Delay are exact in floating point."
  },
  {
   "property": "C115",
   "status": "proved",
   "theorems": [
    "Rasp.C115_exact",
    "Rasp.C115_power_of_two"
   ],
   "note": "Equality of the whole objects, not only of outputs. Other common factors change the rounding of the angle in floating point; C83 and C84 bound the effect."
  },
  {
   "property": "C116",
   "status": "proved",
   "theorems": [
    "Rasp.C116_delay_gather",
    "Rasp.C116_linear_gather",
    "Rasp.C116_delay_scatter",
    "Rasp.C116_transposed",
    "Rasp.C116_unheard"
   ],
   "note": "The client programs (gather, scatter) are in Spec/MultiTap.lean and call only trait methods."
  },
  {
   "property": "C117",
   "status": "proved",
   "theorems": [
    "Rasp.C117_biquad1",
    "Rasp.C117_biquad2",
    "Rasp.C117_false_second_order"
   ],
   "note": "Floating-point companion of C34 and C31. The order of the additions in Biquad1 and the small filters is part of what is proved."
  },
  {
   "property": "C118",
   "status": "proved",
   "theorems": [
    "Rasp.C118_hint_not_exact",
    "Rasp.C118_adapters_panic",
    "Rasp.C118_adapters_empty",
    "Rasp.C118_exact_hint_would_do"
   ],
   "note": "A finding. The code of the adapters is std's, not the crate's; iteration itself does not use the hint, so C55 and C57 are unaffected."
  },
  {
   "property": "C119",
   "status": "proved",
   "theorems": [
    "Rasp.C119_complementary",
    "Rasp.C119_gain_peak",
    "Rasp.C119_gain_shelves",
    "Rasp.C119_peak_cancels",
    "Rasp.C119_shelves_cancel",
    "Rasp.C119_cancel_f64",
    "Rasp.C119_complementary_f64",
    "Rasp.C119_split_lost_f32"
   ],
   "note": "The constants for boost and cut are far from sharp: the gain bounds behind them are the crude ones from the pole margin."
  },
  {
   "property": "C120",
   "status": "proved",
   "theorems": [
    "Rasp.C120_shift_unique",
    "Rasp.C120_unique",
    "Rasp.C120_rbj",
    "Rasp.C120_rbj_values",
    "Rasp.C120_total",
    "Rasp.C120_shelves",
    "Rasp.C120_filters",
    "Rasp.C120_linear_phase",
    "Rasp.C120_leakyIntegrator",
    "Rasp.C120_delays",
    "Rasp.C120_beat"
   ],
   "note": "Exact arithmetic. The meaning of group delay for envelopes is shown for AllPass only, whose gain does not vary."
  },
  {
   "property": "C121",
   "status": "proved",
   "theorems": [
    "Rasp.C121_total",
    "Rasp.C121_gain",
    "Rasp.C121_constant",
    "Rasp.C121_triangular",
    "Rasp.C121_squares",
    "Rasp.C121_too_few",
    "Rasp.C121_even",
    "Rasp.C121_float",
    "Rasp.C121_float_twice",
    "Rasp.C121_hann",
    "Rasp.C121_hann_twice",
    "Rasp.C121_f32",
    "Rasp.C121_f64"
   ],
   "note": "The overlap-add loop itself is not part of the crate: it is written in Spec/Overlap.lean and runs the model of apply_window."
  },
  {
   "property": "C122",
   "status": "proved",
   "theorems": [
    "Rasp.C122_twoPole",
    "Rasp.C122_leaky",
    "Rasp.C122_integrator_unaltered",
    "Rasp.C122_unaltered",
    "Rasp.C122_attack_only",
    "Rasp.C122_release_only",
    "Rasp.C122_skirts_bandPass1",
    "Rasp.C122_skirts_bandPass2",
    "Rasp.C122_q"
   ],
   "note": "DESIGN.md section 3 has the table of all documented claims."
  },
  {
   "property": "C123",
   "status": "proved",
   "theorems": [
    "Rasp.C123_periodic",
    "Rasp.C123_rbj",
    "Rasp.C123_shelves",
    "Rasp.C123_average",
    "Rasp.C123_energy",
    "Rasp.C123_shelf_energy",
    "Rasp.C123_offset",
    "Rasp.C123_basic_offset",
    "Rasp.C123_float",
    "Rasp.C123_offset_float"
   ],
   "note": "Period energies use the gain ranges of C71, means the end gains of C39."
  },
  {
   "property": "C124",
   "status": "proved",
   "theorems": [
    "Rasp.C124_count",
    "Rasp.C124_finite",
    "Rasp.C124_filters",
    "Rasp.C124_rbj",
    "Rasp.C124_analysis",
    "Rasp.C124_zeros",
    "Rasp.C124_delays",
    "Rasp.C124_close",
    "Rasp.C124_silence",
    "Rasp.C124_stuck"
   ],
   "note": "NaN payloads are not modelled (section 2): a platform that propagates payloads has more states, so the count of states there is larger, not infinite."
  },
  {
   "property": "C125",
   "status": "proved",
   "theorems": [
    "Rasp.C125_loop",
    "Rasp.C125_linear_loop",
    "Rasp.C125_string",
    "Rasp.C125_linear_string",
    "Rasp.C125_gain",
    "Rasp.C125_close",
    "Rasp.C125_level",
    "Rasp.C125_cycle"
   ],
   "note": "The rounds of the loop are code of the caller, stated in Spec/Pluck.lean; the crate contains no loop of its own."
  },
  {
   "property": "C126",
   "status": "proved",
   "theorems": [
    "Rasp.C126_mean",
    "Rasp.C126_level",
    "Rasp.C126_averages",
    "Rasp.C126_rbj_mean",
    "Rasp.C126_rbj_level",
    "Rasp.C126_leaky",
    "Rasp.C126_peak",
    "Rasp.C126_rms"
   ],
   "note": "The cookbook filters are taken in binary64 in the range of C83_f64; the general theorems C126_mean and C126_level take any error bound."
  },
  {
   "property": "C127",
   "status": "proved",
   "theorems": [
    "Rasp.C127_bartlett",
    "Rasp.C127_triangular_even",
    "Rasp.C127_triangular_odd",
    "Rasp.C127_hann",
    "Rasp.C127_lines_leak",
    "Rasp.C127_hann_leaks",
    "Rasp.C127_zeros",
    "Rasp.C127_triangular_zeros",
    "Rasp.C127_signs",
    "Rasp.C127_sinusoid",
    "Rasp.C127_sinusoid_leaks"
   ],
   "note": "Complements C111 (bins of the transform over N points) for frequencies between the bins."
  },
  {
   "property": "C128",
   "status": "proved",
   "theorems": [
    "Rasp.C128_loop",
    "Rasp.C128_close",
    "Rasp.C128_cycle"
   ],
   "note": "Completes C125 for LinearDelay in floating point."
  },
  {
   "property": "C129",
   "status": "proved",
   "theorems": [
    "Rasp.C129_spectrum",
    "Rasp.C129_bins",
    "Rasp.C129_ends",
    "Rasp.C129_leaks",
    "Rasp.C129_hamming",
    "Rasp.C129_blackman"
   ],
   "note": "Complements C111 (bins of the transform over N points) and C127 (the other windows)."
  },
  {
   "property": "C130",
   "status": "proved",
   "theorems": [
    "Rasp.C130_blackman",
    "Rasp.C130_blackman_harris",
    "Rasp.C130_hann",
    "Rasp.C130_hamming",
    "Rasp.C130_bartlett",
    "Rasp.C130_triangular",
    "Rasp.C130_sinusoid"
   ],
   "note": "The levels are rounded to simple fractions: the actual ones are a little lower (Hann -31.5 dB against -29.5 proved, Hamming -42 against -40, Blackman -58 against -54, Blackman-Harris -92 against -80, straight -26.5 against -24)."
  },
  {
   "property": "C131",
   "status": "proved",
   "theorems": [
    "Rasp.C131_delay",
    "Rasp.C131_linearDelay",
    "Rasp.C131_range",
    "Rasp.C131_comb",
    "Rasp.C131_string"
   ],
   "note": "Uses C92 and C125 for the equation of the loop, C87 and C107 for the filter; C69 and C70 supply the responses K."
  },
  {
   "property": "C132",
   "status": "proved",
   "theorems": [
    "Rasp.C132_spectrum",
    "Rasp.C132_lobes",
    "Rasp.C132_f32",
    "Rasp.C132_sinusoid"
   ],
   "note": "Uses C97, C57, C88 and C130; the bounds of C97 for the cosine windows are used for all six."
  },
  {
   "property": "C133",
   "status": "proved",
   "theorems": [
    "Rasp.C133_gain_le",
    "Rasp.C133_filters",
    "Rasp.C133_half",
    "Rasp.C133_peak",
    "Rasp.C133_shelves"
   ],
   "note": "The shelves are combinations of low, band and high pass at another centre. The constants are not sharp. Uses C107; lower bounds from C39 and C40."
  },
  {
   "property": "C134",
   "status": "proved",
   "theorems": [
    "Rasp.C134_tracks",
    "Rasp.C134_f64",
    "Rasp.C134_peak",
    "Rasp.C134_shelves",
    "Rasp.C134_gain_f64"
   ],
   "note": "Uses the coefficient errors of C83 and C84 and the peak gains of C133. Constants are not sharp."
  },
  {
   "property": "C135",
   "status": "proved",
   "theorems": [
    "Rasp.C135_energy",
    "Rasp.C135_stable",
    "Rasp.C135_response",
    "Rasp.C135_constants",
    "Rasp.C135_alternating",
    "Rasp.C135_rbj",
    "Rasp.C135_shelves",
    "Rasp.C135_too_much",
    "Rasp.C135_too_much_alternating",
    "Rasp.C135_in_tune"
   ],
   "note": "Uses C125 for the equation of the loop, C82 for the energy gains, C39 and C40 for the limits."
  },
  {
   "property": "C136",
   "status": "proved",
   "theorems": [
    "Rasp.C136_eq",
    "Rasp.C136_laws"
   ],
   "note": "Model/Derive.lean gives what the derive macros generate for an enum without fields."
  },
  {
   "property": "C137",
   "status": "proved",
   "theorems": [
    "Rasp.C137_equation",
    "Rasp.C137_lossless",
    "Rasp.C137_decay",
    "Rasp.C137_gain",
    "Rasp.C137_mixers",
    "Rasp.C137_echo"
   ],
   "note": "Uses C92 for one line and C108 for one rounded round. Networks with matrices that are only routings are treated in floating point; general matrices only in exact arithmetic."
  },
  {
   "property": "C138",
   "status": "proved",
   "theorems": [
    "Rasp.C138_bounded",
    "Rasp.C138_close",
    "Rasp.C138_matrix"
   ],
   "note": "Uses C137 for the equations. The network and its mixer are the user's; next_out and process are the crate's."
  },
  {
   "property": "C139",
   "status": "proved",
   "theorems": [
    "Rasp.C139_onePole",
    "Rasp.C139_oneZero",
    "Rasp.C139_twoPole",
    "Rasp.C139_twoZero",
    "Rasp.C139_biquad1",
    "Rasp.C139_biquad2",
    "Rasp.C139_running_sum",
    "Rasp.C139_difference",
    "Rasp.C139_undo",
    "Rasp.C139_moving_sum",
    "Rasp.C139_deaf",
    "Rasp.C139_oscillator"
   ],
   "note": "Uses C30 for the equations and C07 for the delay line. Coefficients of feedback that are not whole numbers make the grid finer each round; then only error bounds hold (C73)."
  },
  {
   "property": "C140",
   "status": "proved",
   "theorems": [
    "Rasp.C140_rate",
    "Rasp.C140_tail",
    "Rasp.C140_biquads",
    "Rasp.C140_rbj",
    "Rasp.C140_peak",
    "Rasp.C140_shelves",
    "Rasp.C140_fades"
   ],
   "note": "Extends C94 from impulses to all inputs. In floating point the tail ends in the residues of C81 and C124."
  },
  {
   "property": "C141",
   "status": "proved",
   "theorems": [
    "Rasp.C141_recursive",
    "Rasp.C141_rbj",
    "Rasp.C141_feedforward",
    "Rasp.C141_linear",
    "Rasp.C141_delay_loop",
    "Rasp.C141_linear_loop"
   ],
   "note": "Extends C29 (new filters only) and C68 (analysis types). clear repairs the filters (C06), set_coefficients the rbj filters (C37)."
  },
  {
   "property": "C142",
   "status": "proved",
   "theorems": [
    "Rasp.C142_order",
    "Rasp.C142_largest_is_worst",
    "Rasp.C142_step",
    "Rasp.C142_linear",
    "Rasp.C142_comb",
    "Rasp.C142_decibels"
   ],
   "note": "The detectors' order is C89."
  },
  {
   "property": "C143",
   "status": "proved",
   "theorems": [
    "Rasp.C143_filters",
    "Rasp.C143_reducible",
    "Rasp.C143_rbj",
    "Rasp.C143_peak",
    "Rasp.C143_half_slope",
    "Rasp.C143_shelves",
    "Rasp.C143_silence",
    "Rasp.C143_analysers",
    "Rasp.C143_lengths",
    "Rasp.C143_delays"
   ],
   "note": "The converse for the rbj filters, that only f/sample rate matters, is C115."
  },
  {
   "property": "C144",
   "status": "proved",
   "theorems": [
    "Rasp.C144_delay_parametric",
    "Rasp.C144_delay_conversion",
    "Rasp.C144_formats",
    "Rasp.C144_analysers",
    "Rasp.C144_rbj",
    "Rasp.C144_windows"
   ],
   "note": "The lines must be new with the same delay and maximum, and growing must be possible for both types (allocation limits differ by sample size)."
  },
  {
   "property": "C145",
   "status": "proved",
   "theorems": [
    "Rasp.C145_main_lobe",
    "Rasp.C145_half_bin",
    "Rasp.C145_sinusoid",
    "Rasp.C145_noise",
    "Rasp.C145_bandwidth"
   ],
   "note": "Levels in exact arithmetic; C132 shows how far floating point windows are from these."
  },
  {
   "property": "C146",
   "status": "proved",
   "theorems": [
    "Rasp.C146_warp",
    "Rasp.C146_limit",
    "Rasp.C146_limit_shelves",
    "Rasp.C146_tenth"
   ],
   "note": "The response is the steady-state response to sinusoids (SinusoidGain), as in C70."
  },
  {
   "property": "C147",
   "status": "proved",
   "theorems": [
    "Rasp.C147_delays",
    "Rasp.C147_blocks",
    "Rasp.C147_filters",
    "Rasp.C147_windows",
    "Rasp.C147_util",
    "Rasp.C147_delay_same",
    "Rasp.C147_delay_max",
    "Rasp.C147_linearDelay_same",
    "Rasp.C147_linearDelay_max"
   ],
   "note": "C147_delays, C147_blocks, C147_util say what is never lost; C147_filters, C147_windows, C147_delay_same, C147_linearDelay_same, C147_delay_max, C147_linearDelay_max say where the builds agree."
  },
  {
   "property": "C148",
   "status": "proved",
   "theorems": [
    "Rasp.C148_cross",
    "Rasp.C148_identifies",
    "Rasp.C148_delays",
    "Rasp.C148_spectrum",
    "Rasp.C148_yule_walker",
    "Rasp.C148_filters",
    "Rasp.C148_rbj",
    "Rasp.C148_linear_prediction",
    "Rasp.C148_allPass"
   ],
   "note": "Noise as a measuring signal: cross-correlation gives the impulse response, output correlations give the power spectrum (Wiener–Khinchin) and solve the Yule–Walker equations; linear prediction recovers TwoPole coefficients; AllPass keeps noise white."
  },
  {
   "property": "C149",
   "status": "proved",
   "theorems": [
    "Rasp.C149_mean",
    "Rasp.C149_unequal",
    "Rasp.C149_fluctuation",
    "Rasp.C149_settles",
    "Rasp.C149_confidence",
    "Rasp.C149_filtered"
   ],
   "note": "Mean reading, variance of the readings, probability of being off, and bias with unequal gains for both detectors on noise; RMS detector behind a filter reads the noise gain."
  },
  {
   "property": "C150",
   "status": "proved",
   "theorems": [
    "Rasp.C150_spectrum",
    "Rasp.C150_half_bin",
    "Rasp.C150_sinusoid",
    "Rasp.C150_noise",
    "Rasp.C150_f32"
   ],
   "note": "Floating-point version of C145: spectra of windowed signals, readings of sinusoids within half a bin, half-bin loss relative to the computed sum, root mean square of noise spectra."
  },
  {
   "property": "C151",
   "status": "proved",
   "theorems": [
    "Rasp.C151_phases",
    "Rasp.C151_slopes"
   ],
   "note": "Exact arithmetic, through the difference equation of the shelves (C32) and sinusoids through stable sections. Extends C93 to the shelves."
  },
  {
   "property": "C152",
   "status": "proved",
   "theorems": [
    "Rasp.C152_power",
    "Rasp.C152_cross",
    "Rasp.C152_colour",
    "Rasp.C152_meters",
    "Rasp.C152_rbj",
    "Rasp.C152_f64"
   ],
   "note": "Floating-point version of C106, C148 and C149."
  },
  {
   "property": "C153",
   "status": "proved",
   "theorems": [
    "Rasp.C153_rms",
    "Rasp.C153_response",
    "Rasp.C153_peak",
    "Rasp.C153_peak_periodic",
    "Rasp.C153_rms_periodic",
    "Rasp.C153_f32",
    "Rasp.C153_corner"
   ],
   "note": "Floating-point version of C110. For equal gains the RMS error is smaller than that of C74 (linear in u instead of a square root)."
  },
  {
   "property": "C154",
   "status": "proved",
   "theorems": [
    "Rasp.C154_reading",
    "Rasp.C154_fader",
    "Rasp.C154_ripple",
    "Rasp.C154_sine",
    "Rasp.C154_fader_f64",
    "Rasp.C154_peak",
    "Rasp.C154_shelves"
   ],
   "note": "Ties the three parts of the crate (filters, meters, decibels) together in floating point."
  },
  {
   "property": "C155",
   "status": "proved",
   "theorems": [
    "Rasp.C155_delay",
    "Rasp.C155_linearDelay",
    "Rasp.C155_response",
    "Rasp.C155_gain_le",
    "Rasp.C155_linear_phase",
    "Rasp.C155_average_gain",
    "Rasp.C155_average_period",
    "Rasp.C155_echo",
    "Rasp.C155_flanger",
    "Rasp.C155_flanger_gain",
    "Rasp.C155_notch",
    "Rasp.C155_headroom",
    "Rasp.C155_noise",
    "Rasp.C155_float",
    "Rasp.C155_float_sine",
    "Rasp.C155_float_cancel"
   ],
   "note": "The counterpart of C131 without feedback."
  },
  {
   "property": "C156",
   "status": "proved",
   "theorems": [
    "Rasp.C156_limiter",
    "Rasp.C156_transparent",
    "Rasp.C156_leveller",
    "Rasp.C156_gain_first",
    "Rasp.C156_overshoot",
    "Rasp.C156_lookahead",
    "Rasp.C156_any_level",
    "Rasp.C156_levelled",
    "Rasp.C156_lookahead_float"
   ],
   "note": "Client programs; only process of the detectors and the delay line is called."
  },
  {
   "property": "C157",
   "status": "proved",
   "theorems": [
    "Rasp.C157_runs",
    "Rasp.C157_echoes",
    "Rasp.C157_reverberation_time",
    "Rasp.C157_energy",
    "Rasp.C157_allpass_energy",
    "Rasp.C157_headroom",
    "Rasp.C157_float",
    "Rasp.C157_schroeder"
   ],
   "note": "Client program; only Delay::new, next_out and process are called."
  },
  {
   "property": "C158",
   "status": "proved",
   "theorems": [
    "Rasp.C158_lines",
    "Rasp.C158_float_line",
    "Rasp.C158_lowpass",
    "Rasp.C158_ripple",
    "Rasp.C158_float"
   ],
   "note": "Client program; only apply_window, the window iterators and the tapped lines are called."
  },
  {
   "property": "C159",
   "status": "proved",
   "theorems": [
    "Rasp.C159_bands",
    "Rasp.C159_kinds",
    "Rasp.C159_crossover",
    "Rasp.C159_float",
    "Rasp.C159_lines",
    "Rasp.C159_crossover_lines",
    "Rasp.C159_float_line"
   ],
   "note": "Client program; only apply_window, the window iterators and the tapped lines are called."
  },
  {
   "property": "C160",
   "status": "proved",
   "theorems": [
    "Rasp.C160_runs",
    "Rasp.C160_ceiling",
    "Rasp.C160_reached",
    "Rasp.C160_quiet",
    "Rasp.C160_ratio",
    "Rasp.C160_sine",
    "Rasp.C160_float",
    "Rasp.C160_float_ceiling"
   ],
   "note": "Client program; only the detectors and the decibel conversions are called. No make-up gain, no knee."
  },
  {
   "property": "C161",
   "status": "proved",
   "theorems": [
    "Rasp.C161_no_chatter",
    "Rasp.C161_closes",
    "Rasp.C161_opens",
    "Rasp.C161_holds",
    "Rasp.C161_released",
    "Rasp.C161_sine"
   ],
   "note": "Client program; only the detectors are called."
  },
  {
   "property": "C162",
   "status": "proved",
   "theorems": [
    "Rasp.C162_response",
    "Rasp.C162_notches",
    "Rasp.C162_centre",
    "Rasp.C162_float"
   ],
   "note": "Client program; only the filters are called. In exact arithmetic the sum is exact, in f64 it is formed with the rounded addition (weight 1)."
  },
  {
   "property": "C163",
   "status": "proved",
   "theorems": [
    "Rasp.C163_runs",
    "Rasp.C163_decibels",
    "Rasp.C163_range",
    "Rasp.C163_ends",
    "Rasp.C163_order",
    "Rasp.C163_undone"
   ],
   "note": "Client program; only the filters are called."
  },
  {
   "property": "C164",
   "status": "proved",
   "theorems": [
    "Rasp.C164_peak",
    "Rasp.C164_lowShelf",
    "Rasp.C164_highShelf",
    "Rasp.C164_equalizer",
    "Rasp.C164_resolved",
    "Rasp.C164_f32"
   ],
   "note": "The hypothesis PowZero on pow is stated in Spec/FlatBands.lean. Overflow of a product of a sample with a feedback coefficient is excluded by hypothesis, not by the code."
  }
 ]
}
