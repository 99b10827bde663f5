{
 "claims": [
  {
   "property": "C01",
   "status": "proved",
   "theorems": [
    "Iir.C01_difference_equation",
    "Iir.C01_unique",
    "Iir.C01_after_reset",
    "Iir.C01_rbj",
    "Iir.C01_pole_filter",
    "Iir.C01_sos"
   ],
   "note": "exact arithmetic, all three topologies"
  },
  {
   "property": "C02",
   "status": "proved",
   "theorems": [
    "Iir.C02_topology",
    "Iir.C02_same_calls",
    "Iir.C02_topology_sos"
   ],
   "note": "exact arithmetic"
  },
  {
   "property": "C03",
   "status": "proved",
   "theorems": [
    "Iir.C03_block_independent",
    "Iir.C03_block_independent_sos",
    "Iir.C03_block_independent_rbj",
    "Iir.C03_causal",
    "Iir.C03_causal_sos",
    "Iir.C03_causal_rbj"
   ],
   "note": "any arithmetic"
  },
  {
   "property": "C04",
   "status": "proved",
   "theorems": [
    "Iir.C04_reset_fresh",
    "Iir.C04_reset_outputs",
    "Iir.C04_reset_idempotent",
    "Iir.C04_reset_sos",
    "Iir.C04_reset_rbj"
   ],
   "note": "any arithmetic"
  },
  {
   "property": "C05",
   "status": "proved",
   "theorems": [
    "Iir.C05_processing_keeps_config",
    "Iir.C05_sos_filter",
    "Iir.C05_sos_reset",
    "Iir.C05_rbj_filter",
    "Iir.C05_rbj_reset"
   ],
   "note": "any arithmetic"
  },
  {
   "property": "C06",
   "status": "proved",
   "theorems": [
    "Iir.C06_setup_keeps_states",
    "Iir.C06_setup_ignores_states",
    "Iir.C06_setup_reset",
    "Iir.C06_rbj_keeps_state",
    "Iir.C06_rbj_ignores_state",
    "Iir.C06_rbj_setup_then_reset",
    "Iir.C06_sos_keeps_states",
    "Iir.C06_sos_ignores_states",
    "Iir.C06_sos_setup_then_reset"
   ],
   "note": "any arithmetic"
  },
  {
   "property": "C07",
   "status": "proved",
   "theorems": [
    "Iir.C07_linear",
    "Iir.C07_time_invariant",
    "Iir.C07_total",
    "Iir.C07_sos",
    "Iir.C07_rbj"
   ],
   "note": "exact arithmetic"
  },
  {
   "property": "C08",
   "status": "proved",
   "theorems": [
    "Iir.C08_pass_through",
    "Iir.C08_response_one",
    "Iir.C08_pass_through_sos",
    "Iir.C08_pass_through_rbj"
   ],
   "note": "exact arithmetic"
  },
  {
   "property": "C09",
   "status": "proved",
   "theorems": [
    "Iir.C09_poisoned",
    "Iir.C09_reset",
    "Iir.C09_poisoned_rbj",
    "Iir.C09_poisoned_sos",
    "Iir.C09_reset_sos",
    "Iir.C09_reset_rbj",
    "Iir.C09_double"
   ],
   "note": "any arithmetic in which NaN propagates (true of the exact instance)"
  },
  {
   "property": "C10",
   "status": "proved",
   "theorems": [
    "Iir.C10_serial",
    "Iir.C10_single",
    "Iir.C10_serial_signal",
    "Iir.C10_permutation",
    "Iir.C10_permutation_pole_filter"
   ],
   "note": "serial composition in any arithmetic, permutation in exact arithmetic"
  },
  {
   "property": "C11",
   "status": "proved",
   "theorems": [
    "Iir.C11_cast_only",
    "Iir.C11_cast_only_sos",
    "Iir.C11_cast_only_rbj",
    "Iir.C11_int_samples",
    "Iir.C11_int_signal"
   ],
   "note": "any arithmetic and sample type; integer samples in exact arithmetic"
  },
  {
   "property": "C12",
   "status": "partial",
   "theorems": [
    "Iir.C12_history_partial",
    "Iir.C12_rejected_partial",
    "Iir.C12_false",
    "Iir.C12_exact_partial",
    "Iir.C12_rbj",
    "Iir.C12_rbj_throw",
    "Iir.C12_sos",
    "Iir.C12_double_partial"
   ],
   "note": "holds for every call a new object accepts (any arithmetic whose equal doubles differ at most in the sign of a zero, as IEEE: SignedZeros) and, in exact arithmetic, for every non-negative order, any frequency, numeric gain and positive ripple including rejected calls; false for negative Chebyshev ripples (C12_false); negative orders: C49"
  },
  {
   "property": "C13",
   "status": "proved",
   "theorems": [
    "Iir.C13_invalid_frequency_untouched",
    "Iir.C13_invalid_frequency_throws"
   ],
   "note": "any arithmetic"
  },
  {
   "property": "C14",
   "status": "proved",
   "theorems": [
    "Iir.C14_order_too_high"
   ],
   "note": "any arithmetic"
  },
  {
   "property": "C15",
   "status": "partial",
   "theorems": [
    "Iir.C15_retry_partial",
    "Iir.C15_false",
    "Iir.C15_exact_partial",
    "Iir.C15_rbj",
    "Iir.C15_sos"
   ],
   "note": "holds for rejections other than of the prototype (any arithmetic) and, in exact arithmetic, for all calls with numeric gain and positive ripple; false for negative Chebyshev ripples (C15_false)"
  },
  {
   "property": "C16",
   "status": "proved",
   "theorems": [
    "Iir.C16_setup_in_bounds",
    "Iir.C16_queries_in_bounds",
    "Iir.C16_filter_in_bounds",
    "Iir.C16_sos_setup",
    "Iir.C16_sos_filter"
   ],
   "note": "any arithmetic, all histories"
  },
  {
   "property": "C17",
   "status": "proved",
   "theorems": [
    "Iir.C17_setup_eq_setupN",
    "Iir.C17_setupReq_eq_setupNReq",
    "Iir.C17_setupNReq_self",
    "Iir.C17_setupReq_self",
    "Iir.C17_scale_invariant",
    "Iir.C17_scale_invariant_req",
    "Iir.C17_rbj",
    "Iir.C17_rbj_scale_invariant",
    "Iir.C17_double",
    "Iir.C17_double_req",
    "Iir.C17_double_rbj"
   ],
   "note": "any arithmetic; scaling invariance in exact arithmetic and, for exact multiples, in doubles; RBJ included"
  },
  {
   "property": "C18",
   "status": "proved",
   "theorems": [
    "Iir.C18_template_new",
    "Iir.C18_template",
    "Iir.C18_fs",
    "Iir.C18_output",
    "Iir.C18_same_output"
   ],
   "note": "any arithmetic (SignedZeros law, true of IEEE) for coefficients; identity tail exact"
  },
  {
   "property": "C19",
   "status": "partial",
   "theorems": [
    "Iir.C19_counts_new",
    "Iir.C19_counts_partial",
    "Iir.C19_stage_index",
    "Iir.C19_false",
    "Iir.C19_exact_partial",
    "Iir.C19_double_partial"
   ],
   "note": "holds whenever a new object accepts the call (any arithmetic with the SignedZeros law, true of IEEE) and, in exact arithmetic, after every successful setup with numeric gain and positive ripple; false after a rejected negative ripple (C19_false)"
  },
  {
   "property": "C20",
   "status": "proved",
   "theorems": [
    "Iir.C20_nan_throws",
    "Iir.C20_no_nan_succeeds",
    "Iir.C20_getters",
    "Iir.C20_hasCoeffs"
   ],
   "note": "checked/atomic in any arithmetic"
  },
  {
   "property": "C21",
   "status": "partial",
   "theorems": [
    "Iir.C21_false_rbj",
    "Iir.C21_false_sos",
    "Iir.C21_no_nan_partial",
    "Iir.C21_valid_design_partial",
    "Iir.C21_valid_rbj_partial"
   ],
   "note": "the code violates the property: negation with witnesses; what holds: finite coefficients with a0 nonzero, and valid parameters of all pole filters and RBJ filters"
  },
  {
   "property": "C22",
   "status": "proved",
   "theorems": [
    "Iir.C22_one_pole",
    "Iir.C22_rejected",
    "Iir.C22_custom_one_pole"
   ],
   "note": ""
  },
  {
   "property": "C23",
   "status": "proved",
   "theorems": [
    "Iir.C23_two_pole",
    "Iir.C23_rejected",
    "Iir.C23_custom_two_pole"
   ],
   "note": ""
  },
  {
   "property": "C24",
   "status": "partial",
   "theorems": [
    "Iir.C24_second_order_partial",
    "Iir.C24_false_first_order",
    "Iir.C24_false_first_order_pole",
    "Iir.C24_first_order_reported"
   ],
   "note": "false for first order sections (witnesses); holds for second order sections"
  },
  {
   "property": "C25",
   "status": "proved",
   "theorems": [
    "Iir.C25_response"
   ],
   "note": ""
  },
  {
   "property": "C26",
   "status": "proved",
   "theorems": [
    "Iir.C26_product",
    "Iir.C26_reachable",
    "Iir.C26_out_of_range",
    "Iir.C26_infinite",
    "Iir.C26_applyScale",
    "Iir.C26_applyScale_empty"
   ],
   "note": "applyScale on a cascade with no active section has no effect (C26_applyScale_empty)"
  },
  {
   "property": "C27",
   "status": "proved",
   "theorems": [
    "Iir.C27_filter_realises_response",
    "Iir.C27_section",
    "Iir.C27_rbj",
    "Iir.C27_sos"
   ],
   "note": ""
  },
  {
   "property": "C28",
   "status": "proved",
   "theorems": [
    "Iir.C28_bounded",
    "Iir.C28_decay",
    "Iir.C28_sos",
    "Iir.C28_section",
    "Iir.C28_rbj"
   ],
   "note": ""
  },
  {
   "property": "C29",
   "status": "proved",
   "theorems": [
    "Iir.C29_stable"
   ],
   "note": "All 21 classes, all orders; Exact real arithmetic; from any reached object. Odd-order band designs: the one width with a double real pole is excepted (the code throws there)."
  },
  {
   "property": "C30",
   "status": "proved",
   "theorems": [
    "Iir.C30_lowpass"
   ],
   "note": "Exact real arithmetic; from any reached object."
  },
  {
   "property": "C31",
   "status": "proved",
   "theorems": [
    "Iir.C31_highpass"
   ],
   "note": "Exact real arithmetic; from any reached object."
  },
  {
   "property": "C32",
   "status": "proved",
   "theorems": [
    "Iir.C32_bandpass"
   ],
   "note": "Exact real arithmetic; from any reached object. Odd order with a band of exactly a quarter of the sampling rate excepted."
  },
  {
   "property": "C33",
   "status": "proved",
   "theorems": [
    "Iir.C33_bandstop"
   ],
   "note": "Exact real arithmetic; from any reached object. Odd order with a band of exactly a quarter of the sampling rate excepted."
  },
  {
   "property": "C34",
   "status": "proved",
   "theorems": [
    "Iir.C34_lowshelf",
    "Iir.C34_highshelf",
    "Iir.C34_bandshelf"
   ],
   "note": "Exact real arithmetic; from any reached object. Band shelf of odd order: two widths excepted."
  },
  {
   "property": "C35",
   "status": "proved",
   "theorems": [
    "Iir.C35_lowpass",
    "Iir.C35_highpass",
    "Iir.C35_bandpass",
    "Iir.C35_bandstop"
   ],
   "note": "Exact real arithmetic; from any reached object. Bands of odd order: one width excepted."
  },
  {
   "property": "C36",
   "status": "proved",
   "theorems": [
    "Iir.C36_lowpass",
    "Iir.C36_highpass",
    "Iir.C36_bandpass",
    "Iir.C36_bandstop"
   ],
   "note": "Exact real arithmetic; from any reached object. Bands of odd order: one width excepted."
  },
  {
   "property": "C37",
   "status": "proved",
   "theorems": [
    "Iir.C37_c1LowShelf",
    "Iir.C37_c2LowShelf",
    "Iir.C37_c1HighShelf",
    "Iir.C37_c2HighShelf",
    "Iir.C37_c1BandShelf",
    "Iir.C37_c2BandShelf"
   ],
   "note": "Exact real arithmetic; from any reached object. Band shelf of odd order: two widths excepted."
  },
  {
   "property": "C38",
   "status": "proved",
   "theorems": [
    "Iir.C38_lowPass",
    "Iir.C38_highPass",
    "Iir.C38_lowPass_response",
    "Iir.C38_highPass_response",
    "Iir.C38_with_sample_rate"
   ],
   "note": ""
  },
  {
   "property": "C39",
   "status": "proved",
   "theorems": [
    "Iir.C39_bandPass1",
    "Iir.C39_bandPass2",
    "Iir.C39_bandStop",
    "Iir.C39_iirNotch"
   ],
   "note": ""
  },
  {
   "property": "C40",
   "status": "proved",
   "theorems": [
    "Iir.C40_lowShelf",
    "Iir.C40_highShelf",
    "Iir.C40_bandShelf"
   ],
   "note": "shelf slope in (0,1]"
  },
  {
   "property": "C41",
   "status": "proved",
   "theorems": [
    "Iir.C41_allPass",
    "Iir.C41_allPass_any"
   ],
   "note": ""
  },
  {
   "property": "C42",
   "status": "proved",
   "theorems": [
    "Iir.C42_stable"
   ],
   "note": ""
  },
  {
   "property": "C43",
   "status": "proved",
   "theorems": [
    "Iir.C43_independent",
    "Iir.C43_copy",
    "Iir.C43_assign"
   ],
   "note": "any arithmetic, any program"
  },
  {
   "property": "C44",
   "status": "partial",
   "theorems": [
    "Iir.C44_independent_partial",
    "Iir.C44_no_copies",
    "Iir.C44_copy_frozen",
    "Iir.C44_setup_on_copy",
    "Iir.C44_dangling",
    "Iir.C44_false"
   ],
   "note": "false for the code: C44_false (a concrete program), C44_setup_on_copy, C44_copy_frozen, C44_dangling; proved when no copy is set up"
  },
  {
   "property": "C45",
   "status": "proved",
   "theorems": [
    "Iir.C45_assign",
    "Iir.C45_queries"
   ],
   "note": "any arithmetic"
  },
  {
   "property": "C46",
   "status": "proved",
   "theorems": [
    "Iir.C46_import",
    "Iir.C46_nan_row"
   ],
   "note": ""
  },
  {
   "property": "C47",
   "status": "proved",
   "theorems": [
    "Iir.C47_reported",
    "Iir.C47_finite",
    "Iir.C47_valid_design"
   ],
   "note": "entries with finite poles and zeros; for valid parameters all entries are finite, with poles inside the unit circle"
  },
  {
   "property": "C48",
   "status": "proved",
   "theorems": [
    "Iir.C48_add_rejects",
    "Iir.C48_add_accepts",
    "Iir.C48_addConjugate_rejects",
    "Iir.C48_addConjugate_accepts",
    "Iir.C48_addPair_rejects",
    "Iir.C48_getPair_range",
    "Iir.C48_matched",
    "Iir.C48_nan_pair_accepted"
   ],
   "note": "add(ComplexPair, ComplexPair) has no NaN test of its own (C48_nan_pair_accepted)"
  },
  {
   "property": "C49",
   "status": "proved",
   "theorems": [
    "Iir.C49_even",
    "Iir.C49_odd",
    "Iir.C49_odd_shelf",
    "Iir.C49_minus_one_used",
    "Iir.C49_minus_one_new",
    "Iir.C49_history"
   ],
   "note": "exact arithmetic, any history; orders above -2^30 (below, 2*order overflows: undefined behaviour, see C16). Chebyshev odd negative orders are the subject of C52"
  },
  {
   "property": "C50",
   "status": "proved",
   "theorems": [
    "Iir.C50_setup_twice",
    "Iir.C50_rbj",
    "Iir.C50_sos"
   ],
   "note": ""
  },
  {
   "property": "C51",
   "status": "proved",
   "theorems": [
    "Iir.C51_refused",
    "Iir.C51_butterworth"
   ],
   "note": "exact arithmetic; every odd order, every class of band filter, every object history"
  },
  {
   "property": "C52",
   "status": "partial",
   "theorems": [
    "Iir.C52_stable_partial",
    "Iir.C52_false",
    "Iir.C52_reversed",
    "Iir.C52_negative_order"
   ],
   "note": "false for the code: C52_false (concrete), C52_reversed (every band class, every valid prototype, negative width), C52_negative_order (Chebyshev low/high pass); proved for valid parameters: C52_stable_partial. Exact arithmetic, any object history"
  },
  {
   "property": "C53",
   "status": "proved",
   "theorems": [
    "Iir.C53_pole_filter",
    "Iir.C53_sos",
    "Iir.C53_section",
    "Iir.C53_rbj",
    "Iir.C53_resonance",
    "Iir.C53_resonance_sos",
    "Iir.C53_resonance_rbj",
    "Iir.C53_criterion"
   ],
   "note": "exact arithmetic; impulse from the reset state. C53_resonance*: poles on the unit circle too, for a suitable bounded input; C53_criterion: with C28 an equivalence when no pole is cancelled"
  },
  {
   "property": "C54",
   "status": "proved",
   "theorems": [
    "Iir.C54_section",
    "Iir.C54_pole_filter",
    "Iir.C54_sos",
    "Iir.C54_rbj",
    "Iir.C54_precise"
   ],
   "note": "any arithmetic with the standard rounding model (Spec.Rounds), explicit precision condition; constants depend on the coefficients only; explicit bound for one section; instances: exact arithmetic, m-bit floating point, IEEE double (C64)"
  },
  {
   "property": "C55",
   "status": "proved",
   "theorems": [
    "Iir.C55_forgets",
    "Iir.C55_reconfigure",
    "Iir.C55_valid_design",
    "Iir.C55_sos",
    "Iir.C55_rbj",
    "Iir.C55_rbj_valid_design"
   ],
   "note": "pole filters, SOS cascades, RBJ filters; from the parameters for all valid designs"
  },
  {
   "property": "C56",
   "status": "proved",
   "theorems": [
    "Iir.C56_bandStop_bandPass",
    "Iir.C56_lowPass_highPass",
    "Iir.C56_allPass",
    "Iir.C56_bandPass1",
    "Iir.rbjRuns_total"
   ],
   "note": "time domain, exact arithmetic"
  },
  {
   "property": "C57",
   "status": "proved",
   "theorems": [
    "Iir.C57_rbj_lowShelf",
    "Iir.C57_rbj_highShelf",
    "Iir.C57_rbj_bandShelf",
    "Iir.C57_shelves",
    "Iir.C57_shelves_restore"
   ],
   "note": "exact arithmetic; RBJ, Butterworth and Chebyshev shelves in the time domain, also the product of the gains"
  },
  {
   "property": "C58",
   "status": "proved",
   "theorems": [
    "Iir.C58_low_high",
    "Iir.C58_pass_stop"
   ],
   "note": "exact arithmetic"
  },
  {
   "property": "C59",
   "status": "proved",
   "theorems": [
    "Iir.C59_energy",
    "Iir.C59_valid_design",
    "Iir.C59_sos",
    "Iir.C59_rbj",
    "Iir.C59_rbj_valid_design"
   ],
   "note": "largest gain bounds energy; reachable stable pole filters, 21 classes from parameters, SOS, RBJ"
  },
  {
   "property": "C60",
   "status": "proved",
   "theorems": [
    "Iir.C60_impulse",
    "Iir.C60_rbj"
   ],
   "note": "Parseval for impulse responses"
  },
  {
   "property": "C61",
   "status": "proved",
   "theorems": [
    "Iir.C61_complementary",
    "Iir.C61_low_high",
    "Iir.C61_pass_stop",
    "Iir.C61_allPass"
   ],
   "note": "inputs of finite energy"
  },
  {
   "property": "C62",
   "status": "proved",
   "theorems": [
    "Iir.C62_peak",
    "Iir.C62_attained"
   ],
   "note": "bounds and attainment for all ten RBJ classes"
  },
  {
   "property": "C63",
   "status": "partial",
   "theorems": [
    "Iir.C63_false",
    "Iir.C63_shelf_undefined",
    "Iir.C63_setup_partial",
    "Iir.C63_response"
   ],
   "note": "False for Butterworth shelves of order >= 2 (negation with witness: C63_false, C63_shelf_undefined); proved for every other setup and for response()."
  },
  {
   "property": "C64",
   "status": "proved",
   "theorems": [
    "Iir.C64_section",
    "Iir.C64_pole_filter",
    "Iir.C64_sos",
    "Iir.C64_rbj",
    "Iir.C64_topologies"
   ],
   "note": "IEEE binary64 defined in Lean (Exact/IEEE)"
  },
  {
   "property": "C65",
   "status": "proved",
   "theorems": [
    "Iir.C65_odd_pole_filter",
    "Iir.C65_odd_sos",
    "Iir.C65_odd_rbj",
    "Iir.C65_delay_pole_filter",
    "Iir.C65_delay_sos",
    "Iir.C65_delay_rbj"
   ],
   "note": "IEEE binary64 defined in Lean; equality is that of C++ (or both NaN)"
  },
  {
   "property": "C66",
   "status": "proved",
   "theorems": [
    "Iir.C66_response",
    "Iir.C66_bw_phase",
    "Iir.C66_rbj"
   ],
   "note": "exact arithmetic; all 21 designs and ten RBJ filters"
  },
  {
   "property": "C67",
   "status": "proved",
   "theorems": [
    "Iir.C67_response_determines_output",
    "Iir.C67_impulse_determines_output",
    "Iir.C67_series",
    "Iir.C67_inverse",
    "Iir.C67_parallel",
    "Iir.C67_rbj_pole",
    "Iir.C67_same_design"
   ],
   "note": "exact arithmetic"
  },
  {
   "property": "C68",
   "status": "proved",
   "theorems": [
    "Iir.C68_lowPass",
    "Iir.C68_highPass",
    "Iir.C68_order_two",
    "Iir.C68_order_two_high",
    "Iir.C68_lowShelf",
    "Iir.C68_highShelf",
    "Iir.C68_bandPass",
    "Iir.C68_bandStop",
    "Iir.C68_bandShelf"
   ],
   "note": "exact arithmetic"
  },
  {
   "property": "C69",
   "status": "proved",
   "theorems": [
    "Iir.C69_first_order",
    "Iir.C69_linkwitz_riley"
   ],
   "note": "exact arithmetic"
  },
  {
   "property": "C70",
   "status": "proved",
   "theorems": [
    "Iir.C70_mirror",
    "Iir.C70_rbj"
   ],
   "note": "exact arithmetic; RBJ IIRNotch and BandShelf, whose width depends on the frequency, are not part of the claim"
  },
  {
   "property": "C71",
   "status": "proved",
   "theorems": [
    "Iir.C71_stable",
    "Iir.C71_double",
    "Iir.C71_double_setup",
    "Iir.C71_practical_valid",
    "Iir.C71_false_tiny_cutoff",
    "Iir.C71_false_band_shelf"
   ],
   "note": "practical limits of the parameters are part of the statement; outside them the witnesses C71_false_tiny_cutoff and C71_false_band_shelf"
  },
  {
   "property": "C72",
   "status": "proved",
   "theorems": [
    "Iir.C72_new",
    "Iir.C72_stable",
    "Iir.C72_double"
   ],
   "note": "any Rounds arithmetic with Library; doubles are one"
  },
  {
   "property": "C73",
   "status": "proved",
   "theorems": [
    "Iir.C73_too_many",
    "Iir.C73_too_many_response",
    "Iir.C73_recovers",
    "Iir.C73_own_layout",
    "Iir.C73_settles",
    "Iir.C73_poleZeros_stay"
   ],
   "note": "any arithmetic: a rejected layout; exact: response, stability and steady state of a client's own layout"
  },
  {
   "property": "C74",
   "status": "proved",
   "theorems": [
    "Iir.C74_same_as_setupN",
    "Iir.C74_never_ok",
    "Iir.C74_out_of_bounds",
    "Iir.C74_exact",
    "Iir.C74_next_order",
    "Iir.C74_next_order_band",
    "Iir.C74_orders"
   ],
   "note": "any arithmetic; exact arithmetic for valid parameters"
  },
  {
   "property": "C75",
   "status": "proved",
   "theorems": [
    "Iir.C75_filters_like_sos",
    "Iir.C75_reports_stay",
    "Iir.C75_installs",
    "Iir.C75_response_false"
   ],
   "note": "any arithmetic for filter and reports; exact for response"
  },
  {
   "property": "C76",
   "status": "proved",
   "theorems": [
    "Iir.C76_accurate",
    "Iir.C76_sampleRate",
    "Iir.C76_double"
   ],
   "note": ""
  },
  {
   "property": "C77",
   "status": "proved",
   "theorems": [
    "Iir.C77_accurate",
    "Iir.C77_call",
    "Iir.C77_double"
   ],
   "note": "Butterworth low and high passes of order at most 16 in double arithmetic against the same call in exact arithmetic"
  },
  {
   "property": "C78",
   "status": "proved",
   "theorems": [
    "Iir.C78_only_setups",
    "Iir.C78_like_new",
    "Iir.C78_in_bounds",
    "Iir.C78_exact"
   ],
   "note": "any history of own and inherited calls, base class orders up to FilterOrder (beyond: C74)"
  },
  {
   "property": "C79",
   "status": "proved",
   "theorems": [
    "Iir.C79_plain_pole_filter",
    "Iir.C79_plain_sos",
    "Iir.C79_plain_rbj",
    "Iir.C79_may",
    "Iir.C79_pole_filter",
    "Iir.C79_sos",
    "Iir.C79_rbj",
    "Iir.C79_rbj_accurate",
    "Iir.C79_butterworth",
    "Iir.C79_differs",
    "Iir.C79_rbj_double",
    "Iir.C79_butterworth_double"
   ],
   "note": "contraction in filter(); that in the design code is not modelled"
  },
  {
   "property": "C80",
   "status": "proved",
   "theorems": [
    "Iir.C80_accurate",
    "Iir.C80_call",
    "Iir.C80_double",
    "Iir.C80_double_low",
    "Iir.C80_rbj",
    "Iir.C80_rbj_sampleRate",
    "Iir.C80_rbj_double"
   ],
   "note": "For the Butterworth low and high passes of C77 and the RBJ filters of C76; shelves and the other pole filters are not covered."
  },
  {
   "property": "C81",
   "status": "proved",
   "theorems": [
    "Iir.C81_int",
    "Iir.C81_float",
    "Iir.C81_rbj",
    "Iir.C81_butterworth",
    "Iir.C81_sos",
    "Iir.C81_overshoot"
   ],
   "note": "IEEE doubles; float and integer samples"
  },
  {
   "property": "C82",
   "status": "proved",
   "theorems": [
    "Iir.C82_fused",
    "Iir.C82_accurate",
    "Iir.C82_sampleRate",
    "Iir.C82_double",
    "Iir.C82_samples",
    "Iir.C82_response",
    "Iir.C82_response_double"
   ],
   "note": ""
  },
  {
   "property": "C83",
   "status": "proved",
   "theorems": [
    "Iir.C83_reach",
    "Iir.C83_independent",
    "Iir.C83_new"
   ],
   "note": "any arithmetic; all programs of the memory model (Model/Attach.lean)"
  },
  {
   "property": "C84",
   "status": "proved",
   "theorems": [
    "Iir.C84_setup",
    "Iir.C84_sos",
    "Iir.C84_blind",
    "Iir.C84_dangling",
    "Iir.C84_unattached",
    "Iir.C84_own_layout",
    "Iir.C84_blind_exact"
   ],
   "note": "any arithmetic; layouts of the client in exact arithmetic"
  },
  {
   "property": "C85",
   "status": "partial",
   "theorems": [
    "Iir.C85_sections_partial",
    "Iir.C85_repair",
    "Iir.C85_false"
   ],
   "note": "false for setup (C85_false: the prototypes stay shared); proved for all calls that do not design, and for the effect of setup on the repaired copy"
  },
  {
   "property": "C86",
   "status": "proved",
   "theorems": [
    "Iir.C86_pole_filter",
    "Iir.C86_sos",
    "Iir.C86_rbj"
   ],
   "note": ""
  },
  {
   "property": "C87",
   "status": "partial",
   "theorems": [
    "Iir.C87_pole_filter_partial",
    "Iir.C87_rbj_partial",
    "Iir.C87_false"
   ],
   "note": "false in doubles (C87_false: the smallest double is held for ever); proved that the output falls to a multiple of the smallest double"
  },
  {
   "property": "C88",
   "status": "proved",
   "theorems": [
    "Iir.C88_footprint",
    "Iir.C88_threads",
    "Iir.C88_schedule",
    "Iir.C88_constructed",
    "Iir.C88_copies"
   ],
   "note": ""
  },
  {
   "property": "C89",
   "status": "proved",
   "theorems": [
    "Iir.C89_onePole",
    "Iir.C89_twoPole",
    "Iir.C89_plain",
    "Iir.C89_onePole_double",
    "Iir.C89_twoPole_double",
    "Iir.C89_ideal"
   ],
   "note": ""
  },
  {
   "property": "C90",
   "status": "partial",
   "theorems": [
    "Iir.C90_onePole",
    "Iir.C90_twoPole_partial",
    "Iir.C90_false"
   ],
   "note": "one pole: equivalence proved; two poles: false near the unit circle (C90_false), proved for radii up to 1 - 2^-19"
  },
  {
   "property": "C91",
   "status": "partial",
   "theorems": [
    "Iir.C91_unit_partial",
    "Iir.C91_close_partial",
    "Iir.C91_getters",
    "Iir.C91_false"
   ],
   "note": "false for a0 other than 1 (C91_false); exact for a0 = 1, within two roundings otherwise"
  },
  {
   "property": "C92",
   "status": "proved",
   "theorems": [
    "Iir.C92_import",
    "Iir.C92_runs"
   ],
   "note": ""
  },
  {
   "property": "C93",
   "status": "partial",
   "theorems": [
    "Iir.C93_equation",
    "Iir.C93_slow_partial",
    "Iir.C93_false"
   ],
   "note": "False of the code: C93_false (two stable low passes set up in turn before every sample; the impulse response grows without bound). What the filter returns: C93_equation. What holds: C93_slow_partial, for every finite choice of valid settings there is a holding time that keeps the output bounded; finitely many changes are covered."
  },
  {
   "property": "C94",
   "status": "proved",
   "theorems": [
    "Iir.C94_rbj",
    "Iir.C94_bw",
    "Iir.C94_lowshelf",
    "Iir.C94_highshelf",
    "Iir.C94_bandshelf"
   ],
   "note": "exact arithmetic; all ten RBJ filters, all seven Butterworth classes"
  },
  {
   "property": "C95",
   "status": "proved",
   "theorems": [
    "Iir.C95_c1LowPass",
    "Iir.C95_c1HighPass",
    "Iir.C95_c1BandPass",
    "Iir.C95_c1BandStop",
    "Iir.C95_c2LowPass",
    "Iir.C95_c2HighPass",
    "Iir.C95_c2BandPass",
    "Iir.C95_c2BandStop",
    "Iir.C95_lowShelf",
    "Iir.C95_highShelf",
    "Iir.C95_bandShelf"
   ],
   "note": "exact arithmetic"
  },
  {
   "property": "C96",
   "status": "partial",
   "theorems": [
    "Iir.C96_total",
    "Iir.C96_slow_partial",
    "Iir.C96_false"
   ],
   "note": "False of the code: C96_false (two stable Butterworth low passes of order 2 set up in turn before every sample; the impulse response grows without bound, with each of the three delay lines). What holds for every schedule: C96_total (no call fails, the output is a determined sequence of numbers). What holds of the rest: C96_slow_partial, for every finite choice of valid calls there is a holding time that keeps the output bounded."
  },
  {
   "property": "C97",
   "status": "proved",
   "theorems": [
    "Iir.C97_bw_low_cutoff",
    "Iir.C97_bw_low_order",
    "Iir.C97_bw_high_cutoff",
    "Iir.C97_bw_high_order",
    "Iir.C97_bw_band_order",
    "Iir.C97_bw_stop_order",
    "Iir.C97_bw_lowshelf",
    "Iir.C97_bw_highshelf",
    "Iir.C97_c1_low_cutoff",
    "Iir.C97_c1_low_order",
    "Iir.C97_c1_low_ripple",
    "Iir.C97_c1_high_cutoff",
    "Iir.C97_c1_high_order",
    "Iir.C97_c1_high_ripple",
    "Iir.C97_c2_low_cutoff",
    "Iir.C97_c2_low_order",
    "Iir.C97_c2_low_stop",
    "Iir.C97_c2_high_cutoff",
    "Iir.C97_c2_high_order",
    "Iir.C97_c2_high_stop",
    "Iir.C97_rbj_q",
    "Iir.C97_rbj_band_q",
    "Iir.C97_rbj_cutoff",
    "Iir.C97_rbj_bandshelf",
    "Iir.C97_rbj_shelf"
   ],
   "note": "Two calls that differ in one parameter, on any two objects; exact arithmetic."
  },
  {
   "property": "C98",
   "status": "proved",
   "theorems": [
    "Iir.C98_filter",
    "Iir.C98_design",
    "Iir.C98_rbj",
    "Iir.C98_sos",
    "Iir.C98_bw_low",
    "Iir.C98_bw_high",
    "Iir.C98_bw_band",
    "Iir.C98_bw_stop",
    "Iir.C98_c2_low",
    "Iir.C98_c2_high",
    "Iir.C98_c2_band",
    "Iir.C98_c2_stop",
    "Iir.C98_bw_low_shelf",
    "Iir.C98_bw_high_shelf",
    "Iir.C98_bw_band_shelf",
    "Iir.C98_first_order",
    "Iir.C98_first_order_high",
    "Iir.C98_first_order_range"
   ],
   "note": "exact arithmetic; overshoot for Butterworth and Chebyshev II of order 2 or more, order 1 in closed form"
  },
  {
   "property": "C99",
   "status": "proved",
   "theorems": [
    "Iir.C99_butterworth",
    "Iir.C99_rbj",
    "Iir.C99_shelf",
    "Iir.C99_first_order_safe",
    "Iir.C99_first_order_overflow"
   ],
   "note": "Decided up to the rounding error d; between (P - d) M and (P + d) M nothing is claimed."
  },
  {
   "property": "C100",
   "status": "proved",
   "theorems": [
    "Iir.C100_device",
    "Iir.C100_device_rbj",
    "Iir.C100_total",
    "Iir.C100_response",
    "Iir.C100_order",
    "Iir.C100_settles",
    "Iir.C100_peak"
   ],
   "note": "exact arithmetic, from reset; any list of valid pole filters, RBJ filters and stable SOS cascades"
  },
  {
   "property": "C101",
   "status": "proved",
   "theorems": [
    "Iir.C101_pole",
    "Iir.C101_sos",
    "Iir.C101_rbj",
    "Iir.C101_double"
   ],
   "note": "IEEE doubles; any object in any state, any sample type"
  },
  {
   "property": "C102",
   "status": "proved",
   "theorems": [
    "Iir.C102_total",
    "Iir.C102_response",
    "Iir.C102_settles",
    "Iir.C102_peak"
   ],
   "note": "exact arithmetic, from reset; networks without feedback"
  },
  {
   "property": "C103",
   "status": "proved",
   "theorems": [
    "Iir.C103_series"
   ],
   "note": "for the filters of C76, C77 and C82 (Butterworth low and high passes, RBJ)"
  },
  {
   "property": "C104",
   "status": "proved",
   "theorems": [
    "Iir.C104_filter",
    "Iir.C104_rbj",
    "Iir.C104_delay",
    "Iir.C104_delay_rbj",
    "Iir.C104_ramp",
    "Iir.C104_ramp_rbj",
    "Iir.C104_ramp_section",
    "Iir.C104_ramp_notch"
   ],
   "note": "exact arithmetic; ramps: Butterworth low passes and all RBJ filters"
  }
 ]
}