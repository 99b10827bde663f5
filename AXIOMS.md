# Axioms of the property theorems

Written by `tools/axioms.py` from `#print axioms`. Names are without the prefix `Iir.`.

## none (13 theorems)

C04_reset_rbj, C05_rbj_filter, C05_rbj_reset, C05_sos_reset, C06_rbj_ignores_state, C06_rbj_keeps_state, C06_rbj_setup_then_reset, C06_sos_ignores_states, C06_sos_keeps_states, C09_reset_rbj, C11_cast_only_rbj, C17_rbj, C89_plain

## propext (22 theorems)

C03_causal, C03_causal_rbj, C03_causal_sos, C05_sos_filter, C06_setup_ignores_states, C06_setup_keeps_states, C06_sos_setup_then_reset, C10_single, C11_cast_only, C11_cast_only_sos, C14_order_too_high, C16_sos_filter, C17_setupReq_eq_setupNReq, C17_setup_eq_setupN, C18_fs, C20_nan_throws, C20_no_nan_succeeds, C48_getPair_range, C73_poleZeros_stay, C75_filters_like_sos, C75_reports_stay, C91_getters

## Quot.sound (1 theorems)

C03_block_independent_rbj

## propext, Quot.sound (19 theorems)

C03_block_independent, C03_block_independent_sos, C04_reset_fresh, C04_reset_idempotent, C04_reset_outputs, C04_reset_sos, C05_processing_keeps_config, C06_setup_reset, C09_poisoned_rbj, C09_reset, C09_reset_sos, C12_rbj, C12_rbj_throw, C13_invalid_frequency_untouched, C15_rbj, C43_assign, C50_rbj, C63_shelf_undefined, C84_unattached

## propext, Classical.choice, Quot.sound (442 theorems)

C01_after_reset, C01_difference_equation, C01_pole_filter, C01_rbj, C01_sos, C01_unique, C02_same_calls, C02_topology, C02_topology_sos, C07_linear, C07_rbj, C07_sos, C07_time_invariant, C07_total, C08_pass_through, C08_pass_through_rbj, C08_pass_through_sos, C08_response_one, C09_double, C09_poisoned, C09_poisoned_sos, C100_device, C100_device_rbj, C100_order, C100_peak, C100_response, C100_settles, C100_total, C101_double, C101_pole, C101_rbj, C101_sos, C102_peak, C102_response, C102_settles, C102_total, C103_series, C104_delay, C104_delay_rbj, C104_filter, C104_ramp, C104_ramp_notch, C104_ramp_rbj, C104_ramp_section, C104_rbj, C10_permutation, C10_permutation_pole_filter, C10_serial, C10_serial_signal, C11_int_samples, C11_int_signal, C12_double_partial, C12_exact_partial, C12_false, C12_history_partial, C12_rejected_partial, C12_sos, C13_invalid_frequency_throws, C15_exact_partial, C15_false, C15_retry_partial, C15_sos, C16_filter_in_bounds, C16_queries_in_bounds, C16_setup_in_bounds, C16_sos_setup, C17_double, C17_double_rbj, C17_double_req, C17_rbj_scale_invariant, C17_scale_invariant, C17_scale_invariant_req, C17_setupNReq_self, C17_setupReq_self, C18_output, C18_same_output, C18_template, C18_template_new, C19_counts_new, C19_counts_partial, C19_double_partial, C19_exact_partial, C19_false, C19_stage_index, C20_getters, C20_hasCoeffs, C21_false_rbj, C21_false_sos, C21_no_nan_partial, C21_valid_design_partial, C21_valid_rbj_partial, C22_custom_one_pole, C22_one_pole, C22_rejected, C23_custom_two_pole, C23_rejected, C23_two_pole, C24_false_first_order, C24_false_first_order_pole, C24_first_order_reported, C24_second_order_partial, C25_response, C26_applyScale, C26_applyScale_empty, C26_infinite, C26_out_of_range, C26_product, C26_reachable, C27_filter_realises_response, C27_rbj, C27_section, C27_sos, C28_bounded, C28_decay, C28_rbj, C28_section, C28_sos, C29_stable, C30_lowpass, C31_highpass, C32_bandpass, C33_bandstop, C34_bandshelf, C34_highshelf, C34_lowshelf, C35_bandpass, C35_bandstop, C35_highpass, C35_lowpass, C36_bandpass, C36_bandstop, C36_highpass, C36_lowpass, C37_c1BandShelf, C37_c1HighShelf, C37_c1LowShelf, C37_c2BandShelf, C37_c2HighShelf, C37_c2LowShelf, C38_highPass, C38_highPass_response, C38_lowPass, C38_lowPass_response, C38_with_sample_rate, C39_bandPass1, C39_bandPass2, C39_bandStop, C39_iirNotch, C40_bandShelf, C40_highShelf, C40_lowShelf, C41_allPass, C41_allPass_any, C42_stable, C43_copy, C43_independent, C44_copy_frozen, C44_dangling, C44_false, C44_independent_partial, C44_no_copies, C44_setup_on_copy, C45_assign, C45_queries, C46_import, C46_nan_row, C47_finite, C47_reported, C47_valid_design, C48_addConjugate_accepts, C48_addConjugate_rejects, C48_addPair_rejects, C48_add_accepts, C48_add_rejects, C48_matched, C48_nan_pair_accepted, C49_even, C49_history, C49_minus_one_new, C49_minus_one_used, C49_odd, C49_odd_shelf, C50_setup_twice, C50_sos, C51_butterworth, C51_refused, C52_false, C52_negative_order, C52_reversed, C52_stable_partial, C53_criterion, C53_pole_filter, C53_rbj, C53_resonance, C53_resonance_rbj, C53_resonance_sos, C53_section, C53_sos, C54_pole_filter, C54_precise, C54_rbj, C54_section, C54_sos, C55_forgets, C55_rbj, C55_rbj_valid_design, C55_reconfigure, C55_sos, C55_valid_design, C56_allPass, C56_bandPass1, C56_bandStop_bandPass, C56_lowPass_highPass, C57_rbj_bandShelf, C57_rbj_highShelf, C57_rbj_lowShelf, C57_shelves, C57_shelves_restore, C58_low_high, C58_pass_stop, C59_energy, C59_rbj, C59_rbj_valid_design, C59_sos, C59_valid_design, C60_impulse, C60_rbj, C61_allPass, C61_complementary, C61_low_high, C61_pass_stop, C62_attained, C62_peak, C63_false, C63_response, C63_setup_partial, C64_pole_filter, C64_rbj, C64_section, C64_sos, C64_topologies, C65_delay_pole_filter, C65_delay_rbj, C65_delay_sos, C65_odd_pole_filter, C65_odd_rbj, C65_odd_sos, C66_bw_phase, C66_rbj, C66_response, C67_impulse_determines_output, C67_inverse, C67_parallel, C67_rbj_pole, C67_response_determines_output, C67_same_design, C67_series, C68_bandPass, C68_bandShelf, C68_bandStop, C68_highPass, C68_highShelf, C68_lowPass, C68_lowShelf, C68_order_two, C68_order_two_high, C69_first_order, C69_linkwitz_riley, C70_mirror, C70_rbj, C71_double, C71_double_setup, C71_false_band_shelf, C71_false_tiny_cutoff, C71_practical_valid, C71_stable, C72_double, C72_new, C72_stable, C73_own_layout, C73_recovers, C73_settles, C73_too_many, C73_too_many_response, C74_exact, C74_never_ok, C74_next_order, C74_next_order_band, C74_orders, C74_out_of_bounds, C74_same_as_setupN, C75_installs, C75_response_false, C76_accurate, C76_double, C76_sampleRate, C77_accurate, C77_call, C77_double, C78_exact, C78_in_bounds, C78_like_new, C78_only_setups, C79_butterworth, C79_butterworth_double, C79_differs, C79_may, C79_plain_pole_filter, C79_plain_rbj, C79_plain_sos, C79_pole_filter, C79_rbj, C79_rbj_accurate, C79_rbj_double, C79_sos, C80_accurate, C80_call, C80_double, C80_double_low, C80_rbj, C80_rbj_double, C80_rbj_sampleRate, C81_butterworth, C81_float, C81_int, C81_overshoot, C81_rbj, C81_sos, C82_accurate, C82_double, C82_fused, C82_response, C82_response_double, C82_sampleRate, C82_samples, C83_independent, C83_new, C83_reach, C84_blind, C84_blind_exact, C84_dangling, C84_own_layout, C84_setup, C84_sos, C85_false, C85_repair, C85_sections_partial, C86_pole_filter, C86_rbj, C86_sos, C87_false, C87_pole_filter_partial, C87_rbj_partial, C88_constructed, C88_copies, C88_footprint, C88_schedule, C88_threads, C89_ideal, C89_onePole, C89_onePole_double, C89_twoPole, C89_twoPole_double, C90_false, C90_onePole, C90_twoPole_partial, C91_close_partial, C91_false, C91_unit_partial, C92_import, C92_runs, C93_equation, C93_false, C93_slow_partial, C94_bandshelf, C94_bw, C94_highshelf, C94_lowshelf, C94_rbj, C95_bandShelf, C95_c1BandPass, C95_c1BandStop, C95_c1HighPass, C95_c1LowPass, C95_c2BandPass, C95_c2BandStop, C95_c2HighPass, C95_c2LowPass, C95_highShelf, C95_lowShelf, C96_false, C96_slow_partial, C96_total, C97_bw_band_order, C97_bw_high_cutoff, C97_bw_high_order, C97_bw_highshelf, C97_bw_low_cutoff, C97_bw_low_order, C97_bw_lowshelf, C97_bw_stop_order, C97_c1_high_cutoff, C97_c1_high_order, C97_c1_high_ripple, C97_c1_low_cutoff, C97_c1_low_order, C97_c1_low_ripple, C97_c2_high_cutoff, C97_c2_high_order, C97_c2_high_stop, C97_c2_low_cutoff, C97_c2_low_order, C97_c2_low_stop, C97_rbj_band_q, C97_rbj_bandshelf, C97_rbj_cutoff, C97_rbj_q, C97_rbj_shelf, C98_bw_band, C98_bw_band_shelf, C98_bw_high, C98_bw_high_shelf, C98_bw_low, C98_bw_low_shelf, C98_bw_stop, C98_c2_band, C98_c2_high, C98_c2_low, C98_c2_stop, C98_design, C98_filter, C98_first_order, C98_first_order_high, C98_first_order_range, C98_rbj, C98_sos, C99_butterworth, C99_first_order_overflow, C99_first_order_safe, C99_rbj, C99_shelf, rbjRuns_total
