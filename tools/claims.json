{
"C03": {
"status": "proved",
"theorems": [
"C03_block_independent",
"C03_block_independent_sos",
"C03_block_independent_rbj",
"C03_causal",
"C03_causal_sos",
"C03_causal_rbj"
],
"note": "any arithmetic"
},
"C04": {
"status": "proved",
"theorems": [
"C04_reset_fresh",
"C04_reset_outputs",
"C04_reset_idempotent",
"C04_reset_sos",
"C04_reset_rbj"
],
"note": "any arithmetic"
},
"C05": {
"status": "proved",
"theorems": [
"C05_processing_keeps_config",
"C05_sos_filter",
"C05_sos_reset",
"C05_rbj_filter",
"C05_rbj_reset"
],
"note": "any arithmetic"
},
"C06": {
"status": "proved",
"theorems": [
"C06_setup_keeps_states",
"C06_setup_ignores_states",
"C06_setup_reset",
"C06_rbj_keeps_state",
"C06_rbj_ignores_state",
"C06_rbj_setup_then_reset",
"C06_sos_keeps_states",
"C06_sos_ignores_states",
"C06_sos_setup_then_reset"
],
"note": "any arithmetic"
},
"C10": {
"status": "proved",
"theorems": [
"C10_serial",
"C10_single",
"C10_serial_signal",
"C10_permutation",
"C10_permutation_pole_filter"
],
"note": "serial composition in any arithmetic, permutation in exact arithmetic"
},
"C11": {
"status": "proved",
"theorems": [
"C11_cast_only",
"C11_cast_only_sos",
"C11_cast_only_rbj",
"C11_int_samples",
"C11_int_signal"
],
"note": "any arithmetic and sample type; integer samples in exact arithmetic"
},
"C13": {
"status": "proved",
"theorems": [
"C13_invalid_frequency_untouched",
"C13_invalid_frequency_throws"
],
"note": "any arithmetic"
},
"C14": {
"status": "proved",
"theorems": [
"C14_order_too_high"
],
"note": "any arithmetic"
},
"C16": {
"status": "proved",
"theorems": [
"C16_setup_in_bounds",
"C16_queries_in_bounds",
"C16_filter_in_bounds",
"C16_sos_setup",
"C16_sos_filter"
],
"note": "any arithmetic, all histories"
},
"C17": {
"status": "proved",
"theorems": [
"C17_setup_eq_setupN",
"C17_setupReq_eq_setupNReq",
"C17_setupNReq_self",
"C17_setupReq_self",
"C17_scale_invariant",
"C17_scale_invariant_req",
"C17_rbj",
"C17_rbj_scale_invariant",
"C17_double",
"C17_double_req",
"C17_double_rbj"
],
"note": "any arithmetic; scaling invariance in exact arithmetic and, for exact multiples, in doubles; RBJ included"
},
"C01": {
"status": "proved",
"theorems": [
"C01_difference_equation",
"C01_unique",
"C01_after_reset",
"C01_rbj",
"C01_pole_filter",
"C01_sos"
],
"note": "exact arithmetic, all three topologies"
},
"C02": {
"status": "proved",
"theorems": [
"C02_topology",
"C02_same_calls",
"C02_topology_sos"
],
"note": "exact arithmetic"
},
"C07": {
"status": "proved",
"theorems": [
"C07_linear",
"C07_time_invariant",
"C07_total",
"C07_sos",
"C07_rbj"
],
"note": "exact arithmetic"
},
"C08": {
"status": "proved",
"theorems": [
"C08_pass_through",
"C08_response_one",
"C08_pass_through_sos",
"C08_pass_through_rbj"
],
"note": "exact arithmetic"
},
"C20": {
"status": "proved",
"theorems": [
"C20_nan_throws",
"C20_no_nan_succeeds",
"C20_getters",
"C20_hasCoeffs"
],
"note": "checked/atomic in any arithmetic"
},
"C21": {
"status": "partial",
"theorems": [
"C21_false_rbj",
"C21_false_sos",
"C21_no_nan_partial",
"C21_valid_design_partial",
"C21_valid_rbj_partial"
],
"note": "the code violates the property: negation with witnesses; what holds: finite coefficients with a0 nonzero, and valid parameters of all pole filters and RBJ filters"
},
"C22": {
"status": "proved",
"theorems": [
"C22_one_pole",
"C22_rejected",
"C22_custom_one_pole"
],
"note": ""
},
"C23": {
"status": "proved",
"theorems": [
"C23_two_pole",
"C23_rejected",
"C23_custom_two_pole"
],
"note": ""
},
"C24": {
"status": "partial",
"theorems": [
"C24_second_order_partial",
"C24_false_first_order",
"C24_false_first_order_pole",
"C24_first_order_reported"
],
"note": "false for first order sections (witnesses); holds for second order sections"
},
"C25": {
"status": "proved",
"theorems": [
"C25_response"
],
"note": ""
},
"C26": {
"status": "proved",
"theorems": [
"C26_product",
"C26_reachable",
"C26_out_of_range",
"C26_infinite",
"C26_applyScale",
"C26_applyScale_empty"
],
"note": "applyScale on a cascade with no active section has no effect (C26_applyScale_empty)"
},
"C27": {
"status": "proved",
"theorems": [
"C27_filter_realises_response",
"C27_section",
"C27_rbj",
"C27_sos"
],
"note": ""
},
"C28": {
"status": "proved",
"theorems": [
"C28_bounded",
"C28_decay",
"C28_sos",
"C28_section",
"C28_rbj"
],
"note": ""
},
"C46": {
"status": "proved",
"theorems": [
"C46_import",
"C46_nan_row"
],
"note": ""
},
"C48": {
"status": "proved",
"theorems": [
"C48_add_rejects",
"C48_add_accepts",
"C48_addConjugate_rejects",
"C48_addConjugate_accepts",
"C48_addPair_rejects",
"C48_getPair_range",
"C48_matched",
"C48_nan_pair_accepted"
],
"note": "add(ComplexPair, ComplexPair) has no NaN test of its own (C48_nan_pair_accepted)"
},
"C38": {
"status": "proved",
"theorems": [
"C38_lowPass",
"C38_highPass",
"C38_lowPass_response",
"C38_highPass_response",
"C38_with_sample_rate"
],
"note": ""
},
"C39": {
"status": "proved",
"theorems": [
"C39_bandPass1",
"C39_bandPass2",
"C39_bandStop",
"C39_iirNotch"
],
"note": ""
},
"C40": {
"status": "proved",
"theorems": [
"C40_lowShelf",
"C40_highShelf",
"C40_bandShelf"
],
"note": "shelf slope in (0,1]"
},
"C41": {
"status": "proved",
"theorems": [
"C41_allPass",
"C41_allPass_any"
],
"note": ""
},
"C42": {
"status": "proved",
"theorems": [
"C42_stable"
],
"note": ""
},
"C09": {
"status": "proved",
"theorems": [
"C09_poisoned",
"C09_reset",
"C09_poisoned_rbj",
"C09_poisoned_sos",
"C09_reset_sos",
"C09_reset_rbj",
"C09_double"
],
"note": "any arithmetic in which NaN propagates (true of the exact instance)"
},
"C12": {
"status": "partial",
"theorems": [
"C12_history_partial",
"C12_rejected_partial",
"C12_false",
"C12_exact_partial",
"C12_rbj",
"C12_rbj_throw",
"C12_sos",
"C12_double_partial"
],
"note": "holds for every call a new object accepts (any arithmetic whose equal doubles differ at most in the sign of a zero, as IEEE: SignedZeros) and, in exact arithmetic, for every non-negative order, any frequency, numeric gain and positive ripple including rejected calls; false for negative Chebyshev ripples (C12_false); negative orders: C49"
},
"C15": {
"status": "partial",
"theorems": [
"C15_retry_partial",
"C15_false",
"C15_exact_partial",
"C15_rbj",
"C15_sos"
],
"note": "holds for rejections other than of the prototype (any arithmetic) and, in exact arithmetic, for all calls with numeric gain and positive ripple; false for negative Chebyshev ripples (C15_false)"
},
"C18": {
"status": "proved",
"theorems": [
"C18_template_new",
"C18_template",
"C18_fs",
"C18_output",
"C18_same_output"
],
"note": "any arithmetic (SignedZeros law, true of IEEE) for coefficients; identity tail exact"
},
"C19": {
"status": "partial",
"theorems": [
"C19_counts_new",
"C19_counts_partial",
"C19_stage_index",
"C19_false",
"C19_exact_partial",
"C19_double_partial"
],
"note": "holds whenever a new object accepts the call (any arithmetic with the SignedZeros law, true of IEEE) and, in exact arithmetic, after every successful setup with numeric gain and positive ripple; false after a rejected negative ripple (C19_false)"
},
"C50": {
"status": "proved",
"theorems": [
"C50_setup_twice",
"C50_rbj",
"C50_sos"
],
"note": ""
},
"C47": {
"status": "proved",
"theorems": [
"C47_reported",
"C47_finite",
"C47_valid_design"
],
"note": "entries with finite poles and zeros; for valid parameters all entries are finite, with poles inside the unit circle"
},
"C43": {
"status": "proved",
"theorems": [
"C43_independent",
"C43_copy",
"C43_assign"
],
"note": "any arithmetic, any program"
},
"C44": {
"status": "partial",
"theorems": [
"C44_independent_partial",
"C44_no_copies",
"C44_copy_frozen",
"C44_setup_on_copy",
"C44_dangling",
"C44_false"
],
"note": "false for the code: C44_false (a concrete program), C44_setup_on_copy, C44_copy_frozen, C44_dangling; proved when no copy is set up"
},
"C45": {
"status": "proved",
"theorems": [
"C45_assign",
"C45_queries"
],
"note": "any arithmetic"
},
"C29": {
"status": "proved",
"theorems": [
"C29_stable"
],
"note": "All 21 classes, all orders; Exact real arithmetic; from any reached object. Odd-order band designs: the one width with a double real pole is excepted (the code throws there)."
},
"C30": {
"status": "proved",
"theorems": [
"C30_lowpass"
],
"note": "Exact real arithmetic; from any reached object."
},
"C31": {
"status": "proved",
"theorems": [
"C31_highpass"
],
"note": "Exact real arithmetic; from any reached object."
},
"C32": {
"status": "proved",
"theorems": [
"C32_bandpass"
],
"note": "Exact real arithmetic; from any reached object. Odd order with a band of exactly a quarter of the sampling rate excepted."
},
"C33": {
"status": "proved",
"theorems": [
"C33_bandstop"
],
"note": "Exact real arithmetic; from any reached object. Odd order with a band of exactly a quarter of the sampling rate excepted."
},
"C34": {
"status": "proved",
"theorems": [
"C34_lowshelf",
"C34_highshelf",
"C34_bandshelf"
],
"note": "Exact real arithmetic; from any reached object. Band shelf of odd order: two widths excepted."
},
"C35": {
"status": "proved",
"theorems": [
"C35_lowpass",
"C35_highpass",
"C35_bandpass",
"C35_bandstop"
],
"note": "Exact real arithmetic; from any reached object. Bands of odd order: one width excepted."
},
"C36": {
"status": "proved",
"theorems": [
"C36_lowpass",
"C36_highpass",
"C36_bandpass",
"C36_bandstop"
],
"note": "Exact real arithmetic; from any reached object. Bands of odd order: one width excepted."
},
"C37": {
"status": "proved",
"theorems": [
"C37_c1LowShelf",
"C37_c2LowShelf",
"C37_c1HighShelf",
"C37_c2HighShelf",
"C37_c1BandShelf",
"C37_c2BandShelf"
],
"note": "Exact real arithmetic; from any reached object. Band shelf of odd order: two widths excepted."
},
"C51": {
"status": "proved",
"theorems": [
"C51_refused",
"C51_butterworth"
],
"note": "exact arithmetic; every odd order, every class of band filter, every object history"
},
"C49": {
"status": "proved",
"theorems": [
"C49_even",
"C49_odd",
"C49_odd_shelf",
"C49_minus_one_used",
"C49_minus_one_new",
"C49_history"
],
"note": "exact arithmetic, any history; orders above -2^30 (below, 2*order overflows: undefined behaviour, see C16). Chebyshev odd negative orders are the subject of C52"
},
"C52": {
"status": "partial",
"theorems": [
"C52_stable_partial",
"C52_false",
"C52_reversed",
"C52_negative_order"
],
"note": "false for the code: C52_false (concrete), C52_reversed (every band class, every valid prototype, negative width), C52_negative_order (Chebyshev low/high pass); proved for valid parameters: C52_stable_partial. Exact arithmetic, any object history"
},
"C53": {
"status": "proved",
"theorems": [
"C53_pole_filter",
"C53_sos",
"C53_section",
"C53_rbj",
"C53_resonance",
"C53_resonance_sos",
"C53_resonance_rbj",
"C53_criterion"
],
"note": "exact arithmetic; impulse from the reset state. C53_resonance*: poles on the unit circle too, for a suitable bounded input; C53_criterion: with C28 an equivalence when no pole is cancelled"
},
"C54": {
"status": "proved",
"theorems": [
"C54_section",
"C54_pole_filter",
"C54_sos",
"C54_rbj",
"C54_precise"
],
"note": "any arithmetic with the standard rounding model (Spec.Rounds), explicit precision condition; constants depend on the coefficients only; explicit bound for one section; instances: exact arithmetic, m-bit floating point, IEEE double (C64)"
},
"C55": {
"status": "proved",
"theorems": [
"C55_forgets",
"C55_reconfigure",
"C55_valid_design",
"C55_sos",
"C55_rbj",
"C55_rbj_valid_design"
],
"note": "pole filters, SOS cascades, RBJ filters; from the parameters for all valid designs"
},
"C56": {
"status": "proved",
"theorems": [
"C56_bandStop_bandPass",
"C56_lowPass_highPass",
"C56_allPass",
"C56_bandPass1",
"rbjRuns_total"
],
"note": "time domain, exact arithmetic"
},
"C57": {
"status": "proved",
"theorems": [
"C57_rbj_lowShelf",
"C57_rbj_highShelf",
"C57_rbj_bandShelf",
"C57_shelves",
"C57_shelves_restore"
],
"note": "exact arithmetic; RBJ, Butterworth and Chebyshev shelves in the time domain, also the product of the gains"
},
"C58": {
"status": "proved",
"theorems": [
"C58_low_high",
"C58_pass_stop"
],
"note": "exact arithmetic"
},
"C59": {
"status": "proved",
"theorems": [
"C59_energy",
"C59_valid_design",
"C59_sos",
"C59_rbj",
"C59_rbj_valid_design"
],
"note": "largest gain bounds energy; reachable stable pole filters, 21 classes from parameters, SOS, RBJ"
},
"C60": {
"status": "proved",
"theorems": [
"C60_impulse",
"C60_rbj"
],
"note": "Parseval for impulse responses"
},
"C61": {
"status": "proved",
"theorems": [
"C61_complementary",
"C61_low_high",
"C61_pass_stop",
"C61_allPass"
],
"note": "inputs of finite energy"
},
"C62": {
"status": "proved",
"theorems": [
"C62_peak",
"C62_attained"
],
"note": "bounds and attainment for all ten RBJ classes"
},
"C63": {
"status": "partial",
"theorems": [
"C63_false",
"C63_shelf_undefined",
"C63_setup_partial",
"C63_response"
],
"note": "False for Butterworth shelves of order >= 2 (negation with witness: C63_false, C63_shelf_undefined); proved for every other setup and for response()."
},
"C64": {
"status": "proved",
"theorems": [
"C64_section",
"C64_pole_filter",
"C64_sos",
"C64_rbj",
"C64_topologies"
],
"note": "IEEE binary64 defined in Lean (Exact/IEEE)"
},
"C65": {
"status": "proved",
"theorems": [
"C65_odd_pole_filter",
"C65_odd_sos",
"C65_odd_rbj",
"C65_delay_pole_filter",
"C65_delay_sos",
"C65_delay_rbj"
],
"note": "IEEE binary64 defined in Lean; equality is that of C++ (or both NaN)"
},
"C66": {
"status": "proved",
"theorems": [
"C66_response",
"C66_bw_phase",
"C66_rbj"
],
"note": "exact arithmetic; all 21 designs and ten RBJ filters"
},
"C67": {
"status": "proved",
"theorems": [
"C67_response_determines_output",
"C67_impulse_determines_output",
"C67_series",
"C67_inverse",
"C67_parallel",
"C67_rbj_pole",
"C67_same_design"
],
"note": "exact arithmetic"
},
"C68": {
"status": "proved",
"theorems": [
"C68_lowPass",
"C68_highPass",
"C68_order_two",
"C68_order_two_high",
"C68_lowShelf",
"C68_highShelf",
"C68_bandPass",
"C68_bandStop",
"C68_bandShelf"
],
"note": "exact arithmetic"
},
"C69": {
"status": "proved",
"theorems": [
"C69_first_order",
"C69_linkwitz_riley"
],
"note": "exact arithmetic"
},
"C70": {
"status": "proved",
"theorems": [
"C70_mirror",
"C70_rbj"
],
"note": "exact arithmetic; RBJ IIRNotch and BandShelf, whose width depends on the frequency, are not part of the claim"
},
"C71": {
"status": "proved",
"theorems": [
"C71_stable",
"C71_double",
"C71_double_setup",
"C71_practical_valid",
"C71_false_tiny_cutoff",
"C71_false_band_shelf"
],
"note": "practical limits of the parameters are part of the statement; outside them the witnesses C71_false_tiny_cutoff and C71_false_band_shelf"
},
"C72": {
"status": "proved",
"theorems": [
"C72_new",
"C72_stable",
"C72_double"
],
"note": "any Rounds arithmetic with Library; doubles are one"
},
"C73": {
"status": "proved",
"theorems": [
"C73_too_many",
"C73_too_many_response",
"C73_recovers",
"C73_own_layout",
"C73_settles",
"C73_poleZeros_stay"
],
"note": "any arithmetic: a rejected layout; exact: response, stability and steady state of a client's own layout"
},
"C74": {
"status": "proved",
"theorems": [
"C74_same_as_setupN",
"C74_never_ok",
"C74_out_of_bounds",
"C74_exact",
"C74_next_order",
"C74_next_order_band",
"C74_orders"
],
"note": "any arithmetic; exact arithmetic for valid parameters"
},
"C75": {
"status": "proved",
"theorems": [
"C75_filters_like_sos",
"C75_reports_stay",
"C75_installs",
"C75_response_false"
],
"note": "any arithmetic for filter and reports; exact for response"
},
"C76": {
"status": "proved",
"theorems": [
"C76_accurate",
"C76_sampleRate",
"C76_double"
],
"note": ""
},
"C77": {
"status": "proved",
"theorems": [
"C77_accurate",
"C77_call",
"C77_double"
],
"note": "Butterworth low and high passes of order at most 16 in double arithmetic against the same call in exact arithmetic"
},
"C78": {
"status": "proved",
"theorems": [
"C78_only_setups",
"C78_like_new",
"C78_in_bounds",
"C78_exact"
],
"note": "any history of own and inherited calls, base class orders up to FilterOrder (beyond: C74)"
},
"C79": {
"status": "proved",
"theorems": [
"C79_plain_pole_filter",
"C79_plain_sos",
"C79_plain_rbj",
"C79_may",
"C79_pole_filter",
"C79_sos",
"C79_rbj",
"C79_rbj_accurate",
"C79_butterworth",
"C79_differs",
"C79_rbj_double",
"C79_butterworth_double"
],
"note": "contraction in filter(); that in the design code is not modelled"
},
"C80": {
"status": "proved",
"theorems": [
"C80_accurate",
"C80_call",
"C80_double",
"C80_double_low",
"C80_rbj",
"C80_rbj_sampleRate",
"C80_rbj_double"
],
"note": "For the Butterworth low and high passes of C77 and the RBJ filters of C76; shelves and the other pole filters are not covered."
},
"C81": {
"status": "proved",
"theorems": [
"C81_int",
"C81_float",
"C81_rbj",
"C81_butterworth",
"C81_sos",
"C81_overshoot"
],
"note": "IEEE doubles; float and integer samples"
},
"C82": {
"status": "proved",
"theorems": [
"C82_fused",
"C82_accurate",
"C82_sampleRate",
"C82_double",
"C82_samples",
"C82_response",
"C82_response_double"
],
"note": ""
},
"C83": {
"status": "proved",
"theorems": [
"C83_reach",
"C83_independent",
"C83_new"
],
"note": "any arithmetic; all programs of the memory model (Model/Attach.lean)"
},
"C84": {
"status": "proved",
"theorems": [
"C84_setup",
"C84_sos",
"C84_blind",
"C84_dangling",
"C84_unattached",
"C84_own_layout",
"C84_blind_exact"
],
"note": "any arithmetic; layouts of the client in exact arithmetic"
},
"C85": {
"status": "partial",
"theorems": [
"C85_sections_partial",
"C85_repair",
"C85_false"
],
"note": "false for setup (C85_false: the prototypes stay shared); proved for all calls that do not design, and for the effect of setup on the repaired copy"
},
"C86": {
"status": "proved",
"theorems": [
"C86_pole_filter",
"C86_sos",
"C86_rbj"
],
"note": ""
},
"C87": {
"status": "partial",
"theorems": [
"C87_pole_filter_partial",
"C87_rbj_partial",
"C87_false"
],
"note": "false in doubles (C87_false: the smallest double is held for ever); proved that the output falls to a multiple of the smallest double"
},
"C88": {
"status": "proved",
"theorems": [
"C88_footprint",
"C88_threads",
"C88_schedule",
"C88_constructed",
"C88_copies"
],
"note": ""
},
"C89": {
"status": "proved",
"theorems": [
"C89_onePole",
"C89_twoPole",
"C89_plain",
"C89_onePole_double",
"C89_twoPole_double",
"C89_ideal"
],
"note": ""
},
"C90": {
"status": "partial",
"theorems": [
"C90_onePole",
"C90_twoPole_partial",
"C90_false"
],
"note": "one pole: equivalence proved; two poles: false near the unit circle (C90_false), proved for radii up to 1 - 2^-19"
},
"C91": {
"status": "partial",
"theorems": [
"C91_unit_partial",
"C91_close_partial",
"C91_getters",
"C91_false"
],
"note": "false for a0 other than 1 (C91_false); exact for a0 = 1, within two roundings otherwise"
},
"C92": {
"status": "proved",
"theorems": [
"C92_import",
"C92_runs"
],
"note": ""
},
"C93": {
"status": "partial",
"theorems": [
"C93_equation",
"C93_slow_partial",
"C93_false"
],
"note": "False of the code: C93_false (two stable low passes set up in turn before every sample; the impulse response grows without bound). What the filter returns: C93_equation. What holds: C93_slow_partial, for every finite choice of valid settings there is a holding time that keeps the output bounded; finitely many changes are covered."
},
"C94": {
"status": "proved",
"theorems": [
"C94_rbj",
"C94_bw",
"C94_lowshelf",
"C94_highshelf",
"C94_bandshelf"
],
"note": "exact arithmetic; all ten RBJ filters, all seven Butterworth classes"
},
"C95": {
"status": "proved",
"theorems": [
"C95_c1LowPass",
"C95_c1HighPass",
"C95_c1BandPass",
"C95_c1BandStop",
"C95_c2LowPass",
"C95_c2HighPass",
"C95_c2BandPass",
"C95_c2BandStop",
"C95_lowShelf",
"C95_highShelf",
"C95_bandShelf"
],
"note": "exact arithmetic"
},
"C96": {
"status": "partial",
"theorems": [
"C96_total",
"C96_slow_partial",
"C96_false"
],
"note": "False of the code: C96_false (two stable Butterworth low passes of order 2 set up in turn before every sample; the impulse response grows without bound, with each of the three delay lines). What holds for every schedule: C96_total (no call fails, the output is a determined sequence of numbers). What holds of the rest: C96_slow_partial, for every finite choice of valid calls there is a holding time that keeps the output bounded."
},
"C97": {
"status": "proved",
"theorems": [
"C97_bw_low_cutoff",
"C97_bw_low_order",
"C97_bw_high_cutoff",
"C97_bw_high_order",
"C97_bw_band_order",
"C97_bw_stop_order",
"C97_bw_lowshelf",
"C97_bw_highshelf",
"C97_c1_low_cutoff",
"C97_c1_low_order",
"C97_c1_low_ripple",
"C97_c1_high_cutoff",
"C97_c1_high_order",
"C97_c1_high_ripple",
"C97_c2_low_cutoff",
"C97_c2_low_order",
"C97_c2_low_stop",
"C97_c2_high_cutoff",
"C97_c2_high_order",
"C97_c2_high_stop",
"C97_rbj_q",
"C97_rbj_band_q",
"C97_rbj_cutoff",
"C97_rbj_bandshelf",
"C97_rbj_shelf"
],
"note": "Two calls that differ in one parameter, on any two objects; exact arithmetic."
},
"C98": {
"status": "proved",
"theorems": [
"C98_filter",
"C98_design",
"C98_rbj",
"C98_sos",
"C98_bw_low",
"C98_bw_high",
"C98_bw_band",
"C98_bw_stop",
"C98_c2_low",
"C98_c2_high",
"C98_c2_band",
"C98_c2_stop",
"C98_bw_low_shelf",
"C98_bw_high_shelf",
"C98_bw_band_shelf",
"C98_first_order",
"C98_first_order_high",
"C98_first_order_range"
],
"note": "exact arithmetic; overshoot for Butterworth and Chebyshev II of order 2 or more, order 1 in closed form"
},
"C99": {
"status": "proved",
"theorems": [
"C99_butterworth",
"C99_rbj",
"C99_shelf",
"C99_first_order_safe",
"C99_first_order_overflow"
],
"note": "Decided up to the rounding error d; between (P - d) M and (P + d) M nothing is claimed."
},
"C100": {
"status": "proved",
"theorems": [
"C100_device",
"C100_device_rbj",
"C100_total",
"C100_response",
"C100_order",
"C100_settles",
"C100_peak"
],
"note": "exact arithmetic, from reset; any list of valid pole filters, RBJ filters and stable SOS cascades"
},
"C101": {
"status": "proved",
"theorems": [
"C101_pole",
"C101_sos",
"C101_rbj",
"C101_double"
],
"note": "IEEE doubles; any object in any state, any sample type"
},
"C102": {
"status": "proved",
"theorems": [
"C102_total",
"C102_response",
"C102_settles",
"C102_peak"
],
"note": "exact arithmetic, from reset; networks without feedback"
},
"C103": {
"status": "proved",
"theorems": [
"C103_series"
],
"note": "for the filters of C76, C77 and C82 (Butterworth low and high passes, RBJ)"
},
"C104": {
"status": "proved",
"theorems": [
"C104_filter",
"C104_rbj",
"C104_delay",
"C104_delay_rbj",
"C104_ramp",
"C104_ramp_rbj",
"C104_ramp_section",
"C104_ramp_notch"
],
"note": "exact arithmetic; ramps: Butterworth low passes and all RBJ filters"
}
}