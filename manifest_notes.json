{
 "C01": {
  "note": "Non-powers of two: C01_rejects below 2^20 samples per waveform, C01_rejects_long (IEEE rounding, crossfade length representable as int) from 2^20 up to 2^24, where the code's length test may be fooled; above 2^24 C01_accepts_only shows that no wavetable is returned."
 },
 "C02": {
  "note": "nullptr for 19 <= L <= 24 whatever the resampler does; above 2^24 phase grid points coincide in float and are outside the model."
 },
 "C03": {
  "note": "The property is false; its negation is proved for all samples, counts and samplerates."
 },
 "C10": {
  "note": "The property is false; its negation is proved for every wavetable."
 },
 "C19": {
  "note": "The property is false; refuted for length 0 and for negative lengths."
 },
 "C46": {
  "note": "True below 2^20, and proved false at 2^21+1 for a correctly rounded log2f."
 },
 "C47": {
  "note": "True for non-negative arguments; proved false for all negative odd ones."
 },
 "C27": {
  "status": "proved",
  "note": "The property is false: C27_false drives every reached state (>= 8 samples per waveform) out of bounds; C27_exact characterises the failing samples exactly; C27_safe_histories is the true part (histories avoiding phase 0 reached backwards). C27_steady_tone and C27_default: steady backward tones after a default init fail too, for any crossfade length N such that the phase returns to 0 after N samples."
 },
 "C28": {
  "note": "Debug builds always abort; release builds divide by zero for every held phase that is a multiple of 1/4, including the README example. C28_off_grid: held phases off the grid are safe, with any rounding; C28_off_grid_value: and exact."
 },
 "C29": {
  "note": "In range: safe (where C27 allows); out of range: always an out-of-bounds access on the next sample."
 },
 "C30": {
  "note": "Ranges for the state kept between calls, shifts, segment index and corner loop bounds."
 },
 "C36": {
  "note": "C36_change is the part that holds; C36_false_up and C36_false_down prove with explicit legal histories that the output is wrong after an upward move following a backward step and after a two-octave downward move."
 },
 "C33": {
  "note": "Exact arithmetic. Excludes the table moves of C36 (TableMove) and the phases of C48 (OffDenormal), both proved necessary."
 },
 "C34": {
  "note": "Exact arithmetic. Excludes the table moves of C36 (TableMove) and the phases of C48 (OffDenormal), both proved necessary."
 },
 "C35": {
  "note": "Exact arithmetic. Excludes the table moves of C36 (TableMove) and the phases of C48 (OffDenormal), both proved necessary."
 },
 "C39": {
  "note": "C39_forget is exact arithmetic, without assumption about position tracking: it holds in the states of C36/C48 too. C39_float is the rounded version, for runs that carry the position over."
 },
 "C40": {
  "note": "Exact arithmetic; assumes a linear resampler. No assumption about position tracking."
 },
 "C41": {
  "note": "Exact arithmetic; assumes a resampler that keeps constants. No assumption about position tracking. Gain within 1.1e-3 of 1 for every built-in filter."
 },
 "C38": {
  "note": "Exact arithmetic. C38_bounded holds without any assumption about position tracking, C38_tracked gives the sharper constant of the filter alone, C38_gain its value for the built-in filters."
 },
 "C37": {
  "note": "Exact arithmetic; excludes the table moves of C36 and the phases of C48."
 },
 "C22": {
  "status": "proved",
  "note": "C22_wavetable_only and C22_settled hold for every state, rounding and later history; C22_false is the counterexample with a fade in progress (exact arithmetic, kType1, 8 samples, 3-sample fade)."
 },
 "C52": {
  "note": "Exact arithmetic; phases away from the denormal neighbourhood of grid points (C48). No assumption about position tracking before the tone settles."
 },
 "C53": {
  "note": "Exact arithmetic; a statement about the limit tone of C52."
 },
 "C54": {
  "note": "Decimal coefficients as written; conversion to float not modelled. Polynomial inequalities in omega^2, certified for all frequencies by nonnegative coefficients, evaluated by the kernel on rationals."
 },
 "C55": {
  "note": "Exact arithmetic; harmonics of the linear interpolation of the table."
 },
 "C56": {
  "note": "Exact arithmetic. Excludes the denormal phases of C48."
 },
 "C57": {
  "note": "Every ordered field; steps as computed."
 },
 "C58": {
  "note": "Exact arithmetic; a statement about the limit tone of C52."
 },
 "C59": {
  "note": "Accurate is an error model of the arithmetic (relative error, absolute below 2^-80, nothing promised above 2^110); proved for IEEE binary32 with gradual underflow and overflow and the textbook complex formulas (CFloat.accurate, floatSys). Tables between 2^-40 and 2^24, steps at least 2^-100, memory at most 2^90, filters in the range of the built-in ones. The reference uses the stored coefficients and tables and the exact phase difference."
 },
 "C60": {
  "note": "As C59 (no assumption about the memory: it is proved to stay in range). The constant is not sharp. Instantiated with IEEE floats and every built-in filter for a run of any length."
 },
 "C11": {
  "note": "Samplerates: floats that stay floats when scaled by 2^k, |k| <= 24; every IEEE float in [2^-102, 2^103]."
 },
 "C12": {
  "note": "IEEE single precision with underflow and overflow; the double steps are taken with relative error 2^-53 (their operands are floats, so double underflow cannot occur)."
 },
 "C61": {
  "note": "IEEE single precision (ieee32). Sweeps: rising, with the first and last step in range as hypotheses; pow is any monotone function. First benchmark: one pass of the measured loop."
 },
 "C62": {
  "note": "The second part is about debug builds; the third about release builds and steps above 2^-27 (below, where the phase stops depends on the step and whether that is a point of the grid on the length of the table)."
 },
 "C63": {
  "note": "For other float phases it is false near 0 (C64)."
 },
 "C64": {
  "note": "The property is false; C64_false drives every reached state (>= 8 samples per waveform) out of bounds with any such phase, while phase 0 in its place is fine. Out of the documented range [0,1), in the range the assertion of reduce allows."
 },
 "C65": {
  "note": "IEEE single precision; ToneOk states the range."
 },
 "C66": {
  "note": "From the built wavetable on; writing of files and command line not modelled. The frequencies are an arbitrary list, not only generateLogFreqRange's."
 },
 "C67": {
  "note": "C67_benchmark: every rounding satisfying Rounding, every d0 > 0 with p0 = 0. C67_second_pass and C67_shipped: IEEE floats; C67_shipped follows the 204799 float additions of the sweep exactly. C61_passes: the passes that succeed.",
  "also": [
   "Adwt.Props.C61_passes"
  ]
 },
 "C68": {
  "note": "No underflow of the coefficients (all are normal floats)."
 },
 "C69": {
  "note": "Exact arithmetic, no denormal guard hit (TrackedRun), crossfaders in the same state at the start; reversal in bidirectional mode excludes steps of exactly half a cycle, where the modes break the tie in one direction."
 },
 "C70": {
  "note": "Under the hypotheses of C60 (position carried over correctly, zero memory at the start)."
 },
 "C71": {
  "note": "Assumes zero filter memory at the start, which init gives."
 },
 "C73": {
  "note": "init; debug builds abort on every call (refutation); release: linear interpolation exact / with IEEE error bound; overrun for ratio > 8 and out-of-bounds read at phase 1. JUCE's oversampler is an arbitrary function of its block, of size 8 * block size."
 },
 "C74": {
  "note": "C74_in_place and C74_feedback: every arithmetic (no law of K or C used). Memory is a function from addresses to floats; address wrap-around and the size of the memory are not modelled. C74_false: exact arithmetic."
 },
 "C75": {
  "note": "C75_release_safe, C75_step, C75_debug_aborts: any rounding. C75_value, C75_lost_turn: exact arithmetic; C75_lost_turn_false: exact arithmetic, every shipped filter, a concrete waveform."
 },
 "C76": {
  "note": "ftz32 rounds to IEEE binary32 and flushes the result; operands below 2^-126 do not occur (they are results or inputs, and inputs that are subnormal are outside the hypotheses), so DAZ makes no difference. log2f is the correctly rounded logarithm."
 },
 "C42": {
  "note": "C42_batch_size: every history, legal or not, under Lawful operations. C42_float: runs as in C60 (position tracking in order, no table change by more than one octave per sample); the same crossfader state at the start. C42_padding: up to 2^22 coefficients."
 },
 "C77": {
  "note": "C77_forget: any rounding; C77_rate and C77_builtin: the built-in filters in binary32. The memory may be anything up to 2^89; the run from then on must carry the position over (C36, C48). C39_float: the agreement of two oscillators.",
  "also": [
   "Adwt.Props.C39_float"
  ]
 },
 "C78": {
  "note": "C78_fresh: any arithmetic, any state. C78_exact, C78_ieee: which wavetable. C78_unit_test and C78_unit_test_ieee: the test as a program (Model/Tests.lean). A bound on the difference of the outputs in floats is not claimed: the tables of the higher octaves come from the resampler, an arbitrary function."
 },
 "C79": {
  "note": "The random numbers are arguments of the modelled tests. RateOk: a samplerate at which the default crossfade takes at least one sample and fewer than 2^31. Waveform lengths up to 2^18 (C02)."
 },
 "C80": {
  "note": "The bound is that of C12 at each change; exact arithmetic needs no bound. C80_documented: k <= 5."
 },
 "C81": {
  "note": "No legality hypothesis. The resampler is assumed to map a negated input to the negated output. Reals do not distinguish -0 from 0. Instances: IEEE binary32 and flush-to-zero arithmetic with every built-in filter."
 },
 "C82": {
  "note": "C82_free for any arithmetic that treats both signs alike; C82_flush, C82_faint, C82_zero and C82_alive for binary32 real and complex arithmetic with the built-in coefficients; the exponentials of the poles are correctly rounded from the float coefficients. The example plays one sample of a constant waveform, switches and continues for any number of samples; its first memory entry is not zero."
 },
 "C83": {
  "note": "C83_exact and C83_float: two runs with the same selected tables (for different phases this is a hypothesis: where a step crosses an octave boundary the tables differ, see C36). C83_rounded and C83_builtin: two oscillators called alike, within the documented pitch limit, forever; only the samples differ, and that they select the same tables is proved. C83_tables: from samples to mipmap tables, given that the resampler enlarges differences at most G times."
 },
 "C84": {
  "note": "Covers C56 and C72 (scratch_forward) and, beyond them, backward steps; scratch_octave shows that playing within one octave meets the conditions. Outside the conditions the position can be lost: C36_false_up, C36_false_down, and a read out of bounds can happen: C27. Float version for steps of at least 2^-100."
 },
 "C85": {
  "note": "C85_code: the source's own order is one of them. C85_exact, C85_float, C85_rounded, C85_builtin: same bound as C72/C84 for every order. Reassociation elsewhere (inside the segment sums) is not covered."
 },
 "C86": {
  "note": "The resampler is assumed to fail, consume and produce independently of the sample values (libsamplerate's simple API does). No legality hypothesis. Infinities and NaN are not modelled. C86_time counts the corner loops, the only ones whose length varies (C43)."
 },
 "C87": {
  "note": "C87_exact, C87_float, C87_rounded and C87_builtin bound every output of an endless run by peakGain (Spec/Headroom.lean: the integral of |Re sum 2 r e^{zt}| over t > 0) times the peak of the tables; C87_gain and C87_stored bound that integral for the five built-in filters (trapezoidal panels with a proved error term, evaluated in fixed point by the kernel). The older C38 and C70 use the cruder sum of the sections' gains. C87_needed: lower bounds, exact arithmetic."
 },
 "C88": {
  "note": "C88_exact gives every output of every legal history as c * stepResponse(samples since the last reset) (Spec/TurnOn.lean: the integral of the impulse response); C88_table, C88_overshoot and C88_first are the numbers for the built-in filters, C88_stored the effect of rounding the coefficients, C88_headroom the bound by C87. turnExample is a concrete history of seven samples with both modes and a reset. C88_float: in floats, nearly constant tables, the output is c times the step response within an explicit bound."
 },
 "C89": {
  "note": "C89_exact: any filter, exact arithmetic (Spec/Latency.lean defines latency as a quotient of integrals, and what the filter remembers after K samples). C89_latency and C89_memory: the numbers of the built-in filters. C89_float and C89_builtin: rounded arithmetic and coefficients as stored. latencyExample: any waveform of 8 samples read slowly, with every built-in filter."
 },
 "C90": {
  "note": "C90_exact (any run, any filter), C90_start (the built-in filters forget the start), C90_float, C90_builtin (two octaves, IEEE floats, stored coefficients), C90_switch, C90_jump, C90_jump_size (the click of setWaveform). Spec/Click.lean defines the remainder of the start and the two octaves. clickExample and an example for C90_builtin with a change of octave at every step. C90_levels, C90_levels_builtin: in floats the output of nearly constant waveforms, switched before any sample, is the filter response to the sequence of levels within an explicit bound. C90_sequence: any sequence of constant waveforms, exact arithmetic."
 },
 "C91": {
  "note": "Model/Held continues the sample after the division by a zero step; what a corner with the quotient x/0 does to an accumulator is a parameter, only the quotient 0/0 is assumed to give NaN (IEEE; -ffast-math permits the compiler anything). C91_extends: apart from that the extended model does what the model does."
 },
 "C92": {
  "note": "Spec/Bank: a bank of oscillators and unique_ptr variables, schedules as lists of tagged calls. C92_schedule: outcome per thread, failure included; C92_order: two schedules of the same threads end alike; C92_programs: each oscillator behaves as in the single-oscillator programs (Call, runCalls) of C81/C82/C86. Calls are atomic in the model: interleavings inside a call commute because calls of different threads name no common object. That the library has no mutable static data was checked by reading (only constexpr tables; libsamplerate's src_simple creates its own state per call)."
 },
 "C93": {
  "note": "C93_passband, C93_half_power: gains of the filters with the literal coefficients, between two frequencies resp. on both sides of the half-power point, by polynomial certificates checked by the kernel. C93_stored: as stored in float (C68). C93_tone: the harmonics of a tone (C53)."
 },
 "C94": {
  "note": "C94_alias: the harmonic beyond the Nyquist frequency against the fundamental, in the tone which the output converges to. C94_false: so the figure is refuted (power ratio 1e-9). C94_measured: in the output samples themselves, by the folding of the spectrum under sampling (all components that fall on the same frequency are bounded) and C52. Exact arithmetic; the levels are 48 dB and more above the figure, the rounding errors of C38/C60 far below it."
 },
 "C95": {
  "note": "C95_volume: general form, for any arithmetic that commutes with the factor (ScaleEnv, ScaleOps), both for success and failure. C95_exact: exact arithmetic, every factor. C95_float: rounding to 24 and 53 bits with unlimited exponents, powers of two, bit for bit; with IEEE exponents underflow and overflow break it (C82 shows the flushes)."
 },
 "C96": {
  "note": "C96_safe: legal programs (Spec/Program.lean: Legal, in terms of what the caller knows) run without a fault and end in the state the caller expects. C96_move: the implicit move constructor. C96_reuse, C96_reuse_swap: after init or swapWavetable nothing depends on what the object was used for. Example: a program of fifteen statements with IEEE floats."
 },
 "C97": {
  "note": "C97_not_a_query: any wavetable, any rounding. C97_heard: a counterexample in exact arithmetic to the reading as a query: same wavetable, same init, same sample, different outputs. Found by proof; the documentation does not mention it."
 },
 "C98": {
  "note": "C98_repeats holds for every arithmetic in which a sum of two complex numbers takes finitely many values; C98_ieee and C98_flush: IEEE floats, any filter, without and with flushing. Floats that overflow are represented by plus or minus 2^128, so a diverging filter memory is not excluded here (C38, C60 bound it); NaN is not part of this arithmetic."
 },
 "C99": {
  "note": "Overlaps C84_octave (exact values); new are safety and the single table for every rounding, the init step of either sign, and the reverse tone. C99_safe: any rounding; C99_exact: values in exact arithmetic, phases within 2^-126 below a grid point excepted (OffDenormal, cf. C29); C99_reverse: the steady backward tone, the counterpart of C27_steady_tone. Steps of 1/8 and above are excluded because init then starts a crossfade upwards whose end changes the lower table (C27, C36)."
 },
 "C100": {
  "note": "C100_error: the exact error; C100_right: the complementary phases; C100_click: the error is not zero. The sample must not cross phase 0 and the grid point behind it must not be the last of the table. This is the exact account of the upward case of C36 (C36_false_up is a single example, for a forward sample). C100_turn is the sample that turns forwards. The first sample after init of a high note played backwards is such a sample (example in Turn.lean)."
 },
 "C101": {
  "note": "C101_right and C101_error are complementary (they overlap where the missed term vanishes) and cover all phases; C101_loud shows that the error grows linearly with the length. The step must not cross phase 0. This is the exact account of the downward case of C36 (C36_false_down is a single example). C101_error_back and C101_right_back are the mirror images. The README tells callers to use resetInternals for such jumps; this claim says what happens if they do not, and why a bound as in C38 must depend on the length of the table. A jump down on the very sample where the direction turns is not covered by an exact formula."
 },
 "C102": {
  "note": "Complements C101: the README's advice to call resetInternals on big frequency jumps is correct. C102_exact and C102_float cover steps in (0, 1/2] in forward mode and positive steps in bidirectional mode (dir may change from sample to sample); C102_new_note is the steady tone; C102_false shows that the condition on a crossfade in progress cannot be dropped. C22 (reset equals a fresh init when settled) is a different statement: it needs a settled crossfader and compares two oscillators."
 },
 "C103": {
  "note": "C84 for runs that start with resetInternals instead of init, and C102 with backward steps. C103_exact and C103_float are the claim, C103_tone the steady tone in either direction, C103_false the counterexample (via C100_click). For forward-only runs C102 needs neither a settled crossfader nor the octave condition."
 },
 "C104": {
  "note": "Exact arithmetic, except C104_float (whose runs start from an empty filter memory with the position tracked, as in C70). C53 is the spectrum of the limit tone as a function of continuous time, C104 that of the samples which process returns, aliases included; C94_measured is the case of one pulse at one speed. The sums converge absolutely.",
  "also": [
   "Adwt.Props.C41_gain"
  ]
 },
 "C105": {
  "note": "In exact arithmetic for the built-in filters (C105_level; nyquistGain is C54's bound on the gain above half the samplerate), and with every operation rounded up to the rounding error of C60 (C105_float, any filter; example: an endless IEEE run). The harmonics below Nyquist never alias onto each other, so their powers add up; the rest is bounded by Minkowski's inequality."
 },
 "C106": {
  "note": "About the source: both builds are assumed to round alike (same compiler options apart from NDEBUG); contraction of a*b+c is an arbitrary function in the model, the same in both builds. The example shows that the exception happens: setWaveform before init."
 },
 "C107": {
  "note": "C107_program and C107_from_start: programs of the bank model with two families of systems over different complex types; C107_getters; C107_work: the corner loop counts. Applies to the program of C96 in IEEE floats for any built-in types, and to a filter without sections."
 },
 "C108": {
  "note": "C108_renumber (init, setWaveform, process, resetInternals, related call by call), C108_alone, C108_twice; C108_samplerates: also updateSamplerate, for a resampler that keeps its contract (a change of the samplerate rebuilds the other waveforms too, so it could fail because of one of them). Applied to two waveforms in either order, in IEEE floats, for every built-in type."
 },
 "C109": {
  "note": "C109_lead_in (any rounding), C109_start_octave, C109_no_lead_in (which pitches), C109_heard (exact arithmetic; for pitches above the starting octave the steps are to be forward), C109_remedy (how to avoid it)."
 }
}