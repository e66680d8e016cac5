{
 "claims": [
  {
   "property": "C01",
   "status": "proved",
   "theorems": [
    "Adwt.Props.C01_rejects",
    "Adwt.Props.C01_rejects_long",
    "Adwt.Props.C01_accepts_only"
   ],
   "note": "Non-powers of two: C01_rejects below 2^20 samples per waveform, C01_rejects_long (IEEE rounding, crossfade length representable as int) from 2^20 up to 2^24, where the code's length test may be fooled; above 2^24 C01_accepts_only shows that no wavetable is returned."
  },
  {
   "property": "C02",
   "status": "proved",
   "theorems": [
    "Adwt.Props.C02_succeeds",
    "Adwt.Props.C02_rejects_long",
    "Adwt.Props.C02_never_crashes"
   ],
   "note": "nullptr for 19 <= L <= 24 whatever the resampler does; above 2^24 phase grid points coincide in float and are outside the model."
  },
  {
   "property": "C03",
   "status": "proved",
   "theorems": [
    "Adwt.Props.C03_false_length_one",
    "Adwt.Props.C03_false_length_two"
   ],
   "note": "The property is false; its negation is proved for all samples, counts and samplerates."
  },
  {
   "property": "C04",
   "status": "proved",
   "theorems": [
    "Adwt.Props.C04_shape"
   ],
   "note": ""
  },
  {
   "property": "C05",
   "status": "proved",
   "theorems": [
    "Adwt.Props.C05_grid"
   ],
   "note": ""
  },
  {
   "property": "C06",
   "status": "proved",
   "theorems": [
    "Adwt.Props.C06_lines"
   ],
   "note": ""
  },
  {
   "property": "C07",
   "status": "proved",
   "theorems": [
    "Adwt.Props.C07_corners"
   ],
   "note": ""
  },
  {
   "property": "C08",
   "status": "proved",
   "theorems": [
    "Adwt.Props.C08_tables",
    "Adwt.Props.C08_lines",
    "Adwt.Props.C08_cascade",
    "Adwt.Props.C08_ratio_range"
   ],
   "note": ""
  },
  {
   "property": "C09",
   "status": "proved",
   "theorems": [
    "Adwt.Props.C09_update",
    "Adwt.Props.C09_same_tables"
   ],
   "note": ""
  },
  {
   "property": "C10",
   "status": "proved",
   "theorems": [
    "Adwt.Props.C10_false"
   ],
   "note": "The property is false; its negation is proved for every wavetable."
  },
  {
   "property": "C11",
   "status": "proved",
   "theorems": [
    "Adwt.Props.C11_scale",
    "Adwt.Props.C11_same_crossfader",
    "Adwt.Props.C11_only_crossfade"
   ],
   "note": "Samplerates: floats that stay floats when scaled by 2^k, |k| <= 24; every IEEE float in [2^-102, 2^103]."
  },
  {
   "property": "C12",
   "status": "proved",
   "theorems": [
    "Adwt.Props.C12_accuracy",
    "Adwt.Props.C12_documented"
   ],
   "note": "IEEE single precision with underflow and overflow; the double steps are taken with relative error 2^-53 (their operands are floats, so double underflow cannot occur)."
  },
  {
   "property": "C13",
   "status": "proved",
   "theorems": [
    "Adwt.Props.C13_octave",
    "Adwt.Props.C13_monotone",
    "Adwt.Props.C13_idle"
   ],
   "note": ""
  },
  {
   "property": "C14",
   "status": "proved",
   "theorems": [
    "Adwt.Props.C14_indices"
   ],
   "note": ""
  },
  {
   "property": "C15",
   "status": "proved",
   "theorems": [
    "Adwt.Props.C15_weights_range",
    "Adwt.Props.C15_sum_ieee",
    "Adwt.Props.C15_sum_exact"
   ],
   "note": ""
  },
  {
   "property": "C16",
   "status": "proved",
   "theorems": [
    "Adwt.Props.C16_fade_on_time"
   ],
   "note": ""
  },
  {
   "property": "C17",
   "status": "proved",
   "theorems": [
    "Adwt.Props.C17_settles"
   ],
   "note": ""
  },
  {
   "property": "C18",
   "status": "proved",
   "theorems": [
    "Adwt.Props.C18_click_free",
    "Adwt.Props.C18_float"
   ],
   "note": ""
  },
  {
   "property": "C19",
   "status": "proved",
   "theorems": [
    "Adwt.Props.C19_zero_length_nan",
    "Adwt.Props.C19_negative_length_diverges"
   ],
   "note": "The property is false; refuted for length 0 and for negative lengths."
  },
  {
   "property": "C20",
   "status": "proved",
   "theorems": [
    "Adwt.Props.C20_null",
    "Adwt.Props.C20_init"
   ],
   "note": ""
  },
  {
   "property": "C21",
   "status": "proved",
   "theorems": [
    "Adwt.Props.C21_null",
    "Adwt.Props.C21_swap",
    "Adwt.Props.C21_conserved"
   ],
   "note": ""
  },
  {
   "property": "C22",
   "status": "proved",
   "theorems": [
    "Adwt.Props.C22_wavetable_only",
    "Adwt.Props.C22_settled",
    "Adwt.Props.C22_false"
   ],
   "note": "C22_wavetable_only and C22_settled hold for every state, rounding and later history; C22_false is the counterexample with a fade in progress (exact arithmetic, kType1, 8 samples, 3-sample fade)."
  },
  {
   "property": "C23",
   "status": "proved",
   "theorems": [
    "Adwt.Props.C23_getters"
   ],
   "note": ""
  },
  {
   "property": "C24",
   "status": "proved",
   "theorems": [
    "Adwt.Props.C24_blocks"
   ],
   "note": ""
  },
  {
   "property": "C25",
   "status": "proved",
   "theorems": [
    "Adwt.Props.C25_isolation"
   ],
   "note": ""
  },
  {
   "property": "C26",
   "status": "proved",
   "theorems": [
    "Adwt.Props.C26_forward",
    "Adwt.Props.C26_from_any"
   ],
   "note": ""
  },
  {
   "property": "C27",
   "status": "proved",
   "theorems": [
    "Adwt.Props.C27_steady_tone",
    "Adwt.Props.C27_default",
    "Adwt.Props.C27_safe_histories",
    "Adwt.Props.C27_exact",
    "Adwt.Props.C27_single_table",
    "Adwt.Props.C27_false"
   ],
   "note": "The property is false: C27_false drives every reached state (>= 8 samples per waveform) out of bounds; C27_exact characterises the failing samples exactly; C27_safe_histories is the true part (histories avoiding phase 0 reached backwards). C27_steady_tone and C27_default: steady backward tones after a default init fail too, for any crossfade length N such that the phase returns to 0 after N samples."
  },
  {
   "property": "C28",
   "status": "proved",
   "theorems": [
    "Adwt.Props.C28_debug_aborts",
    "Adwt.Props.C28_release_divides_by_zero",
    "Adwt.Props.C28_readme_example",
    "Adwt.Props.C28_off_grid",
    "Adwt.Props.C28_off_grid_value"
   ],
   "note": "Debug builds always abort; release builds divide by zero for every held phase that is a multiple of 1/4, including the README example. C28_off_grid: held phases off the grid are safe, with any rounding; C28_off_grid_value: and exact."
  },
  {
   "property": "C29",
   "status": "proved",
   "theorems": [
    "Adwt.Props.C29_set_accepts_all",
    "Adwt.Props.C29_out_of_range",
    "Adwt.Props.C29_in_range"
   ],
   "note": "In range: safe (where C27 allows); out of range: always an out-of-bounds access on the next sample."
  },
  {
   "property": "C30",
   "status": "proved",
   "theorems": [
    "Adwt.Props.C30_state",
    "Adwt.Props.C30_shifts",
    "Adwt.Props.C30_after_sample"
   ],
   "note": "Ranges for the state kept between calls, shifts, segment index and corner loop bounds."
  },
  {
   "property": "C31",
   "status": "proved",
   "theorems": [
    "Adwt.Props.C31_range",
    "Adwt.Props.C31_shortest",
    "Adwt.Props.C31_direction"
   ],
   "note": ""
  },
  {
   "property": "C32",
   "status": "proved",
   "theorems": [
    "Adwt.Props.C32_agree",
    "Adwt.Props.C32_agree_exact",
    "Adwt.Props.C32_differ"
   ],
   "note": ""
  },
  {
   "property": "C33",
   "status": "proved",
   "theorems": [
    "Adwt.Props.C33_forward"
   ],
   "note": "Exact arithmetic. Excludes the table moves of C36 (TableMove) and the phases of C48 (OffDenormal), both proved necessary."
  },
  {
   "property": "C34",
   "status": "proved",
   "theorems": [
    "Adwt.Props.C34_backward"
   ],
   "note": "Exact arithmetic. Excludes the table moves of C36 (TableMove) and the phases of C48 (OffDenormal), both proved necessary."
  },
  {
   "property": "C35",
   "status": "proved",
   "theorems": [
    "Adwt.Props.C35_plays",
    "Adwt.Props.C35_mixture"
   ],
   "note": "Exact arithmetic. Excludes the table moves of C36 (TableMove) and the phases of C48 (OffDenormal), both proved necessary."
  },
  {
   "property": "C36",
   "status": "proved",
   "theorems": [
    "Adwt.Props.C36_change",
    "Adwt.Props.C36_false_up",
    "Adwt.Props.C36_false_down"
   ],
   "note": "C36_change is the part that holds; C36_false_up and C36_false_down prove with explicit legal histories that the output is wrong after an upward move following a backward step and after a two-octave downward move."
  },
  {
   "property": "C37",
   "status": "proved",
   "theorems": [
    "Adwt.Props.C37_convolution"
   ],
   "note": "Exact arithmetic; excludes the table moves of C36 and the phases of C48."
  },
  {
   "property": "C38",
   "status": "proved",
   "theorems": [
    "Adwt.Props.C38_bounded",
    "Adwt.Props.C38_tracked",
    "Adwt.Props.C38_gain"
   ],
   "note": "Exact arithmetic. C38_bounded holds without any assumption about position tracking, C38_tracked gives the sharper constant of the filter alone, C38_gain its value for the built-in filters."
  },
  {
   "property": "C39",
   "status": "proved",
   "theorems": [
    "Adwt.Props.C39_poles",
    "Adwt.Props.C39_forget",
    "Adwt.Props.C39_float"
   ],
   "note": "C39_forget is exact arithmetic, without assumption about position tracking: it holds in the states of C36/C48 too. C39_float is the rounded version, for runs that carry the position over."
  },
  {
   "property": "C40",
   "status": "proved",
   "theorems": [
    "Adwt.Props.C40_linear"
   ],
   "note": "Exact arithmetic; assumes a linear resampler. No assumption about position tracking."
  },
  {
   "property": "C41",
   "status": "proved",
   "theorems": [
    "Adwt.Props.C41_settles",
    "Adwt.Props.C41_gain"
   ],
   "note": "Exact arithmetic; assumes a resampler that keeps constants. No assumption about position tracking. Gain within 1.1e-3 of 1 for every built-in filter."
  },
  {
   "property": "C42",
   "status": "proved",
   "theorems": [
    "Adwt.Props.C42_batch_size",
    "Adwt.Props.C42_float",
    "Adwt.Props.C42_padding"
   ],
   "note": "C42_batch_size: every history, legal or not, under Lawful operations. C42_float: runs as in C60 (position tracking in order, no table change by more than one octave per sample); the same crossfader state at the start. C42_padding: up to 2^22 coefficients."
  },
  {
   "property": "C43",
   "status": "proved",
   "theorems": [
    "Adwt.Props.C43_erase",
    "Adwt.Props.C43_table_length",
    "Adwt.Props.C43_tracked",
    "Adwt.Props.C43_spike"
   ],
   "note": ""
  },
  {
   "property": "C44",
   "status": "proved",
   "theorems": [
    "Adwt.Props.C44_floor",
    "Adwt.Props.C44_ceil",
    "Adwt.Props.C44_any_rounding",
    "Adwt.Props.C44_out_of_range"
   ],
   "note": ""
  },
  {
   "property": "C45",
   "status": "proved",
   "theorems": [
    "Adwt.Props.C45_reduce_int",
    "Adwt.Props.C45_reduce_real",
    "Adwt.Props.C45_reduce_int_rejects",
    "Adwt.Props.C45_edge",
    "Adwt.Props.C45_float_edge"
   ],
   "note": ""
  },
  {
   "property": "C46",
   "status": "proved",
   "theorems": [
    "Adwt.Props.C46_isPowerOfTwo",
    "Adwt.Props.C46_false_above"
   ],
   "note": "True below 2^20, and proved false at 2^21+1 for a correctly rounded log2f."
  },
  {
   "property": "C47",
   "status": "proved",
   "theorems": [
    "Adwt.Props.C47_isOdd_nonneg",
    "Adwt.Props.C47_isOdd_negative"
   ],
   "note": "True for non-negative arguments; proved false for all negative odd ones."
  },
  {
   "property": "C48",
   "status": "proved",
   "theorems": [
    "Adwt.Props.C48_agree",
    "Adwt.Props.C48_false"
   ],
   "note": ""
  },
  {
   "property": "C49",
   "status": "proved",
   "theorems": [
    "Adwt.Props.C49_progress"
   ],
   "note": ""
  },
  {
   "property": "C50",
   "status": "proved",
   "theorems": [
    "Adwt.Props.C50_uninitialised"
   ],
   "note": ""
  },
  {
   "property": "C51",
   "status": "proved",
   "theorems": [
    "Adwt.Props.C51_near"
   ],
   "note": ""
  },
  {
   "property": "C52",
   "status": "proved",
   "theorems": [
    "Adwt.Props.C52_tone",
    "Adwt.Props.C52_idle",
    "Adwt.Props.C52_plays"
   ],
   "note": "Exact arithmetic; phases away from the denormal neighbourhood of grid points (C48). No assumption about position tracking before the tone settles."
  },
  {
   "property": "C53",
   "status": "proved",
   "theorems": [
    "Adwt.Props.C53_spectrum",
    "Adwt.Props.C53_harmonics"
   ],
   "note": "Exact arithmetic; a statement about the limit tone of C52."
  },
  {
   "property": "C54",
   "status": "proved",
   "theorems": [
    "Adwt.Props.C54_nyquist",
    "Adwt.Props.C54_stopband",
    "Adwt.Props.C54_no_boost",
    "Adwt.Props.C54_butterworth"
   ],
   "note": "Decimal coefficients as written; conversion to float not modelled. Polynomial inequalities in omega^2, certified for all frequencies by nonnegative coefficients, evaluated by the kernel on rationals."
  },
  {
   "property": "C55",
   "status": "proved",
   "theorems": [
    "Adwt.Props.C55_alias_energy"
   ],
   "note": "Exact arithmetic; harmonics of the linear interpolation of the table."
  },
  {
   "property": "C56",
   "status": "proved",
   "theorems": [
    "Adwt.Props.C56_pitch_limit"
   ],
   "note": "Exact arithmetic. Excludes the denormal phases of C48."
  },
  {
   "property": "C57",
   "status": "proved",
   "theorems": [
    "Adwt.Props.C57_bandwidth"
   ],
   "note": "Every ordered field; steps as computed."
  },
  {
   "property": "C58",
   "status": "proved",
   "theorems": [
    "Adwt.Props.C58_interpolation",
    "Adwt.Props.C58_images",
    "Adwt.Props.C58_tone",
    "Adwt.Props.C58_clean"
   ],
   "note": "Exact arithmetic; a statement about the limit tone of C52."
  },
  {
   "property": "C59",
   "status": "proved",
   "theorems": [
    "Adwt.Props.C59_sample"
   ],
   "note": "Accurate is an error model of the arithmetic (relative error, absolute below 2^-80, nothing promised above 2^110); proved for IEEE binary32 with gradual underflow and overflow and the textbook complex formulas (CFloat.accurate, floatSys). Tables between 2^-40 and 2^24, steps at least 2^-100, memory at most 2^90, filters in the range of the built-in ones. The reference uses the stored coefficients and tables and the exact phase difference."
  },
  {
   "property": "C60",
   "status": "proved",
   "theorems": [
    "Adwt.Props.C60_run"
   ],
   "note": "As C59 (no assumption about the memory: it is proved to stay in range). The constant is not sharp. Instantiated with IEEE floats and every built-in filter for a run of any length."
  },
  {
   "property": "C61",
   "status": "proved",
   "theorems": [
    "Adwt.Props.C61_legal",
    "Adwt.Props.C61_drift",
    "Adwt.Props.C61_step",
    "Adwt.Props.C61_plays",
    "Adwt.Props.C61_benchmark",
    "Adwt.Props.C61_sweep",
    "Adwt.Props.C61_passes",
    "Adwt.Props.C61_shipped"
   ],
   "note": "IEEE single precision (ieee32). Sweeps: rising, with the first and last step in range as hypotheses; pow is any monotone function. First benchmark: one pass of the measured loop."
  },
  {
   "property": "C62",
   "status": "proved",
   "theorems": [
    "Adwt.Props.C62_stuck",
    "Adwt.Props.C62_debug_aborts",
    "Adwt.Props.C62_release_divides_by_zero"
   ],
   "note": "The second part is about debug builds; the third about release builds and steps above 2^-27 (below, where the phase stops depends on the step and whether that is a point of the grid on the length of the table)."
  },
  {
   "property": "C63",
   "status": "proved",
   "theorems": [
    "Adwt.Props.C63_exact",
    "Adwt.Props.C63_grid"
   ],
   "note": "For other float phases it is false near 0 (C64)."
  },
  {
   "property": "C64",
   "status": "proved",
   "theorems": [
    "Adwt.Props.C64_reduces",
    "Adwt.Props.C64_false"
   ],
   "note": "The property is false; C64_false drives every reached state (>= 8 samples per waveform) out of bounds with any such phase, while phase 0 in its place is fine. Out of the documented range [0,1), in the range the assertion of reduce allows."
  },
  {
   "property": "C65",
   "status": "proved",
   "theorems": [
    "Adwt.Props.C65_negative"
   ],
   "note": "IEEE single precision; ToneOk states the range."
  },
  {
   "property": "C66",
   "status": "proved",
   "theorems": [
    "Adwt.Props.C66_tones"
   ],
   "note": "From the built wavetable on; writing of files and command line not modelled. The frequencies are an arbitrary list, not only generateLogFreqRange's."
  },
  {
   "property": "C67",
   "status": "proved",
   "theorems": [
    "Adwt.Props.C67_benchmark",
    "Adwt.Props.C67_second_pass",
    "Adwt.Props.C67_shipped",
    "Adwt.Props.C61_passes"
   ],
   "note": "C67_benchmark: every rounding satisfying Rounding, every d0 > 0 with p0 = 0. C67_second_pass and C67_shipped: IEEE floats; C67_shipped follows the 204799 float additions of the sweep exactly. C61_passes: the passes that succeed."
  },
  {
   "property": "C68",
   "status": "proved",
   "theorems": [
    "Adwt.Props.C68_response",
    "Adwt.Props.C68_nyquist",
    "Adwt.Props.C68_stopband",
    "Adwt.Props.C68_no_boost",
    "Adwt.Props.C68_butterworth",
    "Adwt.Props.C68_stored"
   ],
   "note": "No underflow of the coefficients (all are normal floats)."
  },
  {
   "property": "C69",
   "status": "proved",
   "theorems": [
    "Adwt.Props.C69_symmetry",
    "Adwt.Props.C69_reverse",
    "Adwt.Props.C69_backward",
    "Adwt.Props.C69_rotate"
   ],
   "note": "Exact arithmetic, no denormal guard hit (TrackedRun), crossfaders in the same state at the start; reversal in bidirectional mode excludes steps of exactly half a cycle, where the modes break the tie in one direction."
  },
  {
   "property": "C70",
   "status": "proved",
   "theorems": [
    "Adwt.Props.C70_bounded",
    "Adwt.Props.C70_tone"
   ],
   "note": "Under the hypotheses of C60 (position carried over correctly, zero memory at the start)."
  },
  {
   "property": "C71",
   "status": "proved",
   "theorems": [
    "Adwt.Props.C71_pitch_limit",
    "Adwt.Props.C71_rounded",
    "Adwt.Props.C71_builtin"
   ],
   "note": "Assumes zero filter memory at the start, which init gives."
  },
  {
   "property": "C72",
   "status": "proved",
   "theorems": [
    "Adwt.Props.C72_switch",
    "Adwt.Props.C72_float",
    "Adwt.Props.C72_rounded",
    "Adwt.Props.C72_builtin"
   ],
   "note": ""
  },
  {
   "property": "C73",
   "status": "proved",
   "theorems": [
    "Adwt.Props.C73_init",
    "Adwt.Props.C73_debug",
    "Adwt.Props.C73_release",
    "Adwt.Props.C73_exact",
    "Adwt.Props.C73_overflow",
    "Adwt.Props.C73_phase_one",
    "Adwt.Props.C73_bench",
    "Adwt.Props.C73_shipped"
   ],
   "note": "init; debug builds abort on every call (refutation); release: linear interpolation exact / with IEEE error bound; overrun for ratio > 8 and out-of-bounds read at phase 1. JUCE's oversampler is an arbitrary function of its block, of size 8 * block size."
  },
  {
   "property": "C74",
   "status": "proved",
   "theorems": [
    "Adwt.Props.C74_in_place",
    "Adwt.Props.C74_feedback",
    "Adwt.Props.C74_false"
   ],
   "note": "C74_in_place and C74_feedback: every arithmetic (no law of K or C used). Memory is a function from addresses to floats; address wrap-around and the size of the memory are not modelled. C74_false: exact arithmetic."
  },
  {
   "property": "C75",
   "status": "proved",
   "theorems": [
    "Adwt.Props.C75_release_safe",
    "Adwt.Props.C75_step",
    "Adwt.Props.C75_debug_aborts",
    "Adwt.Props.C75_value",
    "Adwt.Props.C75_lost_turn",
    "Adwt.Props.C75_lost_turn_false"
   ],
   "note": "C75_release_safe, C75_step, C75_debug_aborts: any rounding. C75_value, C75_lost_turn: exact arithmetic; C75_lost_turn_false: exact arithmetic, every shipped filter, a concrete waveform."
  },
  {
   "property": "C76",
   "status": "proved",
   "theorems": [
    "Adwt.Props.C76_phases",
    "Adwt.Props.C76_safe",
    "Adwt.Props.C76_accuracy",
    "Adwt.Props.C76_tiny",
    "Adwt.Props.C76_runs"
   ],
   "note": "ftz32 rounds to IEEE binary32 and flushes the result; operands below 2^-126 do not occur (they are results or inputs, and inputs that are subnormal are outside the hypotheses), so DAZ makes no difference. log2f is the correctly rounded logarithm."
  },
  {
   "property": "C77",
   "status": "proved",
   "theorems": [
    "Adwt.Props.C77_forget",
    "Adwt.Props.C77_rate",
    "Adwt.Props.C77_builtin",
    "Adwt.Props.C39_float"
   ],
   "note": "C77_forget: any rounding; C77_rate and C77_builtin: the built-in filters in binary32. The memory may be anything up to 2^89; the run from then on must carry the position over (C36, C48). C39_float: the agreement of two oscillators."
  },
  {
   "property": "C78",
   "status": "proved",
   "theorems": [
    "Adwt.Props.C78_fresh",
    "Adwt.Props.C78_exact",
    "Adwt.Props.C78_ieee",
    "Adwt.Props.C78_unit_test",
    "Adwt.Props.C78_unit_test_ieee"
   ],
   "note": "C78_fresh: any arithmetic, any state. C78_exact, C78_ieee: which wavetable. C78_unit_test and C78_unit_test_ieee: the test as a program (Model/Tests.lean). A bound on the difference of the outputs in floats is not claimed: the tables of the higher octaves come from the resampler, an arbitrary function."
  },
  {
   "property": "C79",
   "status": "proved",
   "theorems": [
    "Adwt.Props.C79_bidirectional",
    "Adwt.Props.C79_swap_bidirectional",
    "Adwt.Props.C79_forward",
    "Adwt.Props.C79_swap_forward",
    "Adwt.Props.C79_repeated_phase",
    "Adwt.Props.C79_zero_step",
    "Adwt.Props.C79_half_step",
    "Adwt.Props.C79_indices",
    "Adwt.Props.C79_indices_zero",
    "Adwt.Props.C79_update",
    "Adwt.Props.C79_valid_build",
    "Adwt.Props.C79_invalid_samplerate",
    "Adwt.Props.C79_invalid_num",
    "Adwt.Props.C79_invalid_span"
   ],
   "note": "The random numbers are arguments of the modelled tests. RateOk: a samplerate at which the default crossfade takes at least one sample and fewer than 2^31. Waveform lengths up to 2^18 (C02)."
  },
  {
   "property": "C80",
   "status": "proved",
   "theorems": [
    "Adwt.Props.C80_exact",
    "Adwt.Props.C80_drift",
    "Adwt.Props.C80_fresh",
    "Adwt.Props.C80_documented"
   ],
   "note": "The bound is that of C12 at each change; exact arithmetic needs no bound. C80_documented: k <= 5."
  },
  {
   "property": "C81",
   "status": "proved",
   "theorems": [
    "Adwt.Props.C81_polarity",
    "Adwt.Props.C81_silence"
   ],
   "note": "No legality hypothesis. The resampler is assumed to map a negated input to the negated output. Reals do not distinguish -0 from 0. Instances: IEEE binary32 and flush-to-zero arithmetic with every built-in filter."
  },
  {
   "property": "C82",
   "status": "proved",
   "theorems": [
    "Adwt.Props.C82_free",
    "Adwt.Props.C82_flush",
    "Adwt.Props.C82_faint",
    "Adwt.Props.C82_zero",
    "Adwt.Props.C82_alive"
   ],
   "note": "C82_free for any arithmetic that treats both signs alike; C82_flush, C82_faint, C82_zero and C82_alive for binary32 real and complex arithmetic with the built-in coefficients; the exponentials of the poles are correctly rounded from the float coefficients. The example plays one sample of a constant waveform, switches and continues for any number of samples; its first memory entry is not zero."
  },
  {
   "property": "C83",
   "status": "proved",
   "theorems": [
    "Adwt.Props.C83_exact",
    "Adwt.Props.C83_float",
    "Adwt.Props.C83_rounded",
    "Adwt.Props.C83_builtin",
    "Adwt.Props.C83_tables"
   ],
   "note": "C83_exact and C83_float: two runs with the same selected tables (for different phases this is a hypothesis: where a step crosses an octave boundary the tables differ, see C36). C83_rounded and C83_builtin: two oscillators called alike, within the documented pitch limit, forever; only the samples differ, and that they select the same tables is proved. C83_tables: from samples to mipmap tables, given that the resampler enlarges differences at most G times."
  },
  {
   "property": "C84",
   "status": "proved",
   "theorems": [
    "Adwt.Props.C84_exact",
    "Adwt.Props.C84_rounded",
    "Adwt.Props.C84_builtin",
    "Adwt.Props.C84_octave"
   ],
   "note": "Covers C56 and C72 (scratch_forward) and, beyond them, backward steps; scratch_octave shows that playing within one octave meets the conditions. Outside the conditions the position can be lost: C36_false_up, C36_false_down, and a read out of bounds can happen: C27. Float version for steps of at least 2^-100."
  },
  {
   "property": "C85",
   "status": "proved",
   "theorems": [
    "Adwt.Props.C85_code",
    "Adwt.Props.C85_exact",
    "Adwt.Props.C85_float",
    "Adwt.Props.C85_rounded",
    "Adwt.Props.C85_builtin"
   ],
   "note": "C85_code: the source's own order is one of them. C85_exact, C85_float, C85_rounded, C85_builtin: same bound as C72/C84 for every order. Reassociation elsewhere (inside the segment sums) is not covered."
  },
  {
   "property": "C86",
   "status": "proved",
   "theorems": [
    "Adwt.Props.C86_outcome",
    "Adwt.Props.C86_zeros",
    "Adwt.Props.C86_time"
   ],
   "note": "The resampler is assumed to fail, consume and produce independently of the sample values (libsamplerate's simple API does). No legality hypothesis. Infinities and NaN are not modelled. C86_time counts the corner loops, the only ones whose length varies (C43)."
  },
  {
   "property": "C87",
   "status": "proved",
   "theorems": [
    "Adwt.Props.C87_needed",
    "Adwt.Props.C87_exact",
    "Adwt.Props.C87_float",
    "Adwt.Props.C87_gain",
    "Adwt.Props.C87_stored",
    "Adwt.Props.C87_rounded",
    "Adwt.Props.C87_builtin"
   ],
   "note": "C87_exact, C87_float, C87_rounded and C87_builtin bound every output of an endless run by peakGain (Spec/Headroom.lean: the integral of |Re sum 2 r e^{zt}| over t > 0) times the peak of the tables; C87_gain and C87_stored bound that integral for the five built-in filters (trapezoidal panels with a proved error term, evaluated in fixed point by the kernel). The older C38 and C70 use the cruder sum of the sections' gains. C87_needed: lower bounds, exact arithmetic."
  },
  {
   "property": "C88",
   "status": "proved",
   "theorems": [
    "Adwt.Props.C88_float",
    "Adwt.Props.C88_exact",
    "Adwt.Props.C88_table",
    "Adwt.Props.C88_stored",
    "Adwt.Props.C88_headroom",
    "Adwt.Props.C88_overshoot",
    "Adwt.Props.C88_first"
   ],
   "note": "C88_exact gives every output of every legal history as c * stepResponse(samples since the last reset) (Spec/TurnOn.lean: the integral of the impulse response); C88_table, C88_overshoot and C88_first are the numbers for the built-in filters, C88_stored the effect of rounding the coefficients, C88_headroom the bound by C87. turnExample is a concrete history of seven samples with both modes and a reset. C88_float: in floats, nearly constant tables, the output is c times the step response within an explicit bound."
  },
  {
   "property": "C89",
   "status": "proved",
   "theorems": [
    "Adwt.Props.C89_exact",
    "Adwt.Props.C89_latency",
    "Adwt.Props.C89_memory",
    "Adwt.Props.C89_float",
    "Adwt.Props.C89_builtin"
   ],
   "note": "C89_exact: any filter, exact arithmetic (Spec/Latency.lean defines latency as a quotient of integrals, and what the filter remembers after K samples). C89_latency and C89_memory: the numbers of the built-in filters. C89_float and C89_builtin: rounded arithmetic and coefficients as stored. latencyExample: any waveform of 8 samples read slowly, with every built-in filter."
  },
  {
   "property": "C90",
   "status": "proved",
   "theorems": [
    "Adwt.Props.C90_exact",
    "Adwt.Props.C90_start",
    "Adwt.Props.C90_float",
    "Adwt.Props.C90_builtin",
    "Adwt.Props.C90_switch",
    "Adwt.Props.C90_jump",
    "Adwt.Props.C90_jump_size",
    "Adwt.Props.C90_sequence",
    "Adwt.Props.C90_levels",
    "Adwt.Props.C90_levels_builtin"
   ],
   "note": "C90_exact (any run, any filter), C90_start (the built-in filters forget the start), C90_float, C90_builtin (two octaves, IEEE floats, stored coefficients), C90_switch, C90_jump, C90_jump_size (the click of setWaveform). Spec/Click.lean defines the remainder of the start and the two octaves. clickExample and an example for C90_builtin with a change of octave at every step. C90_levels, C90_levels_builtin: in floats the output of nearly constant waveforms, switched before any sample, is the filter response to the sequence of levels within an explicit bound. C90_sequence: any sequence of constant waveforms, exact arithmetic."
  },
  {
   "property": "C91",
   "status": "proved",
   "theorems": [
    "Adwt.Props.C91_extends",
    "Adwt.Props.C91_persists",
    "Adwt.Props.C91_held",
    "Adwt.Props.C91_forever",
    "Adwt.Props.C91_cure",
    "Adwt.Props.C91_readme"
   ],
   "note": "Model/Held continues the sample after the division by a zero step; what a corner with the quotient x/0 does to an accumulator is a parameter, only the quotient 0/0 is assumed to give NaN (IEEE; -ffast-math permits the compiler anything). C91_extends: apart from that the extended model does what the model does."
  },
  {
   "property": "C92",
   "status": "proved",
   "theorems": [
    "Adwt.Props.C92_schedule",
    "Adwt.Props.C92_order",
    "Adwt.Props.C92_programs"
   ],
   "note": "Spec/Bank: a bank of oscillators and unique_ptr variables, schedules as lists of tagged calls. C92_schedule: outcome per thread, failure included; C92_order: two schedules of the same threads end alike; C92_programs: each oscillator behaves as in the single-oscillator programs (Call, runCalls) of C81/C82/C86. Calls are atomic in the model: interleavings inside a call commute because calls of different threads name no common object. That the library has no mutable static data was checked by reading (only constexpr tables; libsamplerate's src_simple creates its own state per call)."
  },
  {
   "property": "C93",
   "status": "proved",
   "theorems": [
    "Adwt.Props.C93_passband",
    "Adwt.Props.C93_half_power",
    "Adwt.Props.C93_stored",
    "Adwt.Props.C93_tone"
   ],
   "note": "C93_passband, C93_half_power: gains of the filters with the literal coefficients, between two frequencies resp. on both sides of the half-power point, by polynomial certificates checked by the kernel. C93_stored: as stored in float (C68). C93_tone: the harmonics of a tone (C53)."
  },
  {
   "property": "C94",
   "status": "proved",
   "theorems": [
    "Adwt.Props.C94_alias",
    "Adwt.Props.C94_false",
    "Adwt.Props.C94_measured"
   ],
   "note": "C94_alias: the harmonic beyond the Nyquist frequency against the fundamental, in the tone which the output converges to. C94_false: so the figure is refuted (power ratio 1e-9). C94_measured: in the output samples themselves, by the folding of the spectrum under sampling (all components that fall on the same frequency are bounded) and C52. Exact arithmetic; the levels are 48 dB and more above the figure, the rounding errors of C38/C60 far below it."
  },
  {
   "property": "C95",
   "status": "proved",
   "theorems": [
    "Adwt.Props.C95_volume",
    "Adwt.Props.C95_exact",
    "Adwt.Props.C95_float"
   ],
   "note": "C95_volume: general form, for any arithmetic that commutes with the factor (ScaleEnv, ScaleOps), both for success and failure. C95_exact: exact arithmetic, every factor. C95_float: rounding to 24 and 53 bits with unlimited exponents, powers of two, bit for bit; with IEEE exponents underflow and overflow break it (C82 shows the flushes)."
  },
  {
   "property": "C96",
   "status": "proved",
   "theorems": [
    "Adwt.Props.C96_safe",
    "Adwt.Props.C96_move",
    "Adwt.Props.C96_reuse",
    "Adwt.Props.C96_reuse_swap"
   ],
   "note": "C96_safe: legal programs (Spec/Program.lean: Legal, in terms of what the caller knows) run without a fault and end in the state the caller expects. C96_move: the implicit move constructor. C96_reuse, C96_reuse_swap: after init or swapWavetable nothing depends on what the object was used for. Example: a program of fifteen statements with IEEE floats."
  },
  {
   "property": "C97",
   "status": "proved",
   "theorems": [
    "Adwt.Props.C97_not_a_query",
    "Adwt.Props.C97_heard"
   ],
   "note": "C97_not_a_query: any wavetable, any rounding. C97_heard: a counterexample in exact arithmetic to the reading as a query: same wavetable, same init, same sample, different outputs. Found by proof; the documentation does not mention it."
  },
  {
   "property": "C98",
   "status": "proved",
   "theorems": [
    "Adwt.Props.C98_repeats",
    "Adwt.Props.C98_ieee",
    "Adwt.Props.C98_flush"
   ],
   "note": "C98_repeats holds for every arithmetic in which a sum of two complex numbers takes finitely many values; C98_ieee and C98_flush: IEEE floats, any filter, without and with flushing. Floats that overflow are represented by plus or minus 2^128, so a diverging filter memory is not excluded here (C38, C60 bound it); NaN is not part of this arithmetic."
  },
  {
   "property": "C99",
   "status": "proved",
   "theorems": [
    "Adwt.Props.C99_safe",
    "Adwt.Props.C99_exact",
    "Adwt.Props.C99_reverse"
   ],
   "note": "Overlaps C84_octave (exact values); new are safety and the single table for every rounding, the init step of either sign, and the reverse tone. C99_safe: any rounding; C99_exact: values in exact arithmetic, phases within 2^-126 below a grid point excepted (OffDenormal, cf. C29); C99_reverse: the steady backward tone, the counterpart of C27_steady_tone. Steps of 1/8 and above are excluded because init then starts a crossfade upwards whose end changes the lower table (C27, C36)."
  },
  {
   "property": "C100",
   "status": "proved",
   "theorems": [
    "Adwt.Props.C100_error",
    "Adwt.Props.C100_right",
    "Adwt.Props.C100_click",
    "Adwt.Props.C100_turn"
   ],
   "note": "C100_error: the exact error; C100_right: the complementary phases; C100_click: the error is not zero. The sample must not cross phase 0 and the grid point behind it must not be the last of the table. This is the exact account of the upward case of C36 (C36_false_up is a single example, for a forward sample). C100_turn is the sample that turns forwards. The first sample after init of a high note played backwards is such a sample (example in Turn.lean)."
  },
  {
   "property": "C101",
   "status": "proved",
   "theorems": [
    "Adwt.Props.C101_error",
    "Adwt.Props.C101_error_back",
    "Adwt.Props.C101_right_back",
    "Adwt.Props.C101_loud",
    "Adwt.Props.C101_right"
   ],
   "note": "C101_right and C101_error are complementary (they overlap where the missed term vanishes) and cover all phases; C101_loud shows that the error grows linearly with the length. The step must not cross phase 0. This is the exact account of the downward case of C36 (C36_false_down is a single example). C101_error_back and C101_right_back are the mirror images. The README tells callers to use resetInternals for such jumps; this claim says what happens if they do not, and why a bound as in C38 must depend on the length of the table. A jump down on the very sample where the direction turns is not covered by an exact formula."
  },
  {
   "property": "C102",
   "status": "proved",
   "theorems": [
    "Adwt.Props.C102_false",
    "Adwt.Props.C102_exact",
    "Adwt.Props.C102_float",
    "Adwt.Props.C102_new_note",
    "Adwt.Props.C102_builtin"
   ],
   "note": "Complements C101: the README's advice to call resetInternals on big frequency jumps is correct. C102_exact and C102_float cover steps in (0, 1/2] in forward mode and positive steps in bidirectional mode (dir may change from sample to sample); C102_new_note is the steady tone; C102_false shows that the condition on a crossfade in progress cannot be dropped. C22 (reset equals a fresh init when settled) is a different statement: it needs a settled crossfader and compares two oscillators."
  },
  {
   "property": "C103",
   "status": "proved",
   "theorems": [
    "Adwt.Props.C103_exact",
    "Adwt.Props.C103_float",
    "Adwt.Props.C103_tone",
    "Adwt.Props.C103_false",
    "Adwt.Props.C103_builtin"
   ],
   "note": "C84 for runs that start with resetInternals instead of init, and C102 with backward steps. C103_exact and C103_float are the claim, C103_tone the steady tone in either direction, C103_false the counterexample (via C100_click). For forward-only runs C102 needs neither a settled crossfader nor the octave condition."
  },
  {
   "property": "C104",
   "status": "proved",
   "theorems": [
    "Adwt.Props.C104_component",
    "Adwt.Props.C104_unwanted",
    "Adwt.Props.C104_wanted",
    "Adwt.Props.C104_mean",
    "Adwt.Props.C104_float",
    "Adwt.Props.C41_gain"
   ],
   "note": "Exact arithmetic, except C104_float (whose runs start from an empty filter memory with the position tracked, as in C70). C53 is the spectrum of the limit tone as a function of continuous time, C104 that of the samples which process returns, aliases included; C94_measured is the case of one pulse at one speed. The sums converge absolutely."
  },
  {
   "property": "C105",
   "status": "proved",
   "theorems": [
    "Adwt.Props.C105_level",
    "Adwt.Props.C105_float"
   ],
   "note": "In exact arithmetic for the built-in filters (C105_level; nyquistGain is C54's bound on the gain above half the samplerate), and with every operation rounded up to the rounding error of C60 (C105_float, any filter; example: an endless IEEE run). The harmonics below Nyquist never alias onto each other, so their powers add up; the rest is bounded by Minkowski's inequality."
  },
  {
   "property": "C106",
   "status": "proved",
   "theorems": [
    "Adwt.Props.C106_program",
    "Adwt.Props.C106_process",
    "Adwt.Props.C106_in_place",
    "Adwt.Props.C106_reference",
    "Adwt.Props.C106_tested",
    "Adwt.Props.C106_legal"
   ],
   "note": "About the source: both builds are assumed to round alike (same compiler options apart from NDEBUG); contraction of a*b+c is an arbitrary function in the model, the same in both builds. The example shows that the exception happens: setWaveform before init."
  },
  {
   "property": "C107",
   "status": "proved",
   "theorems": [
    "Adwt.Props.C107_program",
    "Adwt.Props.C107_from_start",
    "Adwt.Props.C107_getters",
    "Adwt.Props.C107_work"
   ],
   "note": "C107_program and C107_from_start: programs of the bank model with two families of systems over different complex types; C107_getters; C107_work: the corner loop counts. Applies to the program of C96 in IEEE floats for any built-in types, and to a filter without sections."
  },
  {
   "property": "C108",
   "status": "proved",
   "theorems": [
    "Adwt.Props.C108_renumber",
    "Adwt.Props.C108_alone",
    "Adwt.Props.C108_twice",
    "Adwt.Props.C108_samplerates"
   ],
   "note": "C108_renumber (init, setWaveform, process, resetInternals, related call by call), C108_alone, C108_twice; C108_samplerates: also updateSamplerate, for a resampler that keeps its contract (a change of the samplerate rebuilds the other waveforms too, so it could fail because of one of them). Applied to two waveforms in either order, in IEEE floats, for every built-in type."
  },
  {
   "property": "C109",
   "status": "proved",
   "theorems": [
    "Adwt.Props.C109_lead_in",
    "Adwt.Props.C109_start_octave",
    "Adwt.Props.C109_no_lead_in",
    "Adwt.Props.C109_remedy",
    "Adwt.Props.C109_heard"
   ],
   "note": "C109_lead_in (any rounding), C109_start_octave, C109_no_lead_in (which pitches), C109_heard (exact arithmetic; for pitches above the starting octave the steps are to be forward), C109_remedy (how to avoid it)."
  }
 ]
}