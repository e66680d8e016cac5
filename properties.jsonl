{"id": "C01", "title": "build rejects malformed arguments", "statement": "WavetableData::build returns nullptr, without undefined behaviour and without throwing, whenever the sample span is empty, num_waveforms <= 0, samplerate <= 0, the span length is not a multiple of num_waveforms, or the per-waveform length is not a power of two.", "quantifier": "every sample span, every int num_waveforms, every samplerate and crossfade duration, every resampler behaviour", "why_tests_cant": "The rejected arguments form an unbounded set (all lengths, counts, rates); tests try four offsets around three lengths.", "anchors": ["adwt/wavetable_data.cpp:WavetableData::build", "adwt/maths.hpp:isPowerOfTwo"]}
{"id": "C02", "title": "build succeeds exactly on usable power-of-two lengths", "statement": "With a resampler that honours its contract, and with a crossfade duration for which the number of crossfade samples fits an int, build returns a wavetable for every positive number of waveforms of length 2^L with 2 <= L <= 18 and every positive samplerate, and returns nullptr for L >= 19; it never touches an unfilled intermediate table.", "quantifier": "all L, all waveform counts, all sample values, all positive samplerates, all contract-abiding resamplers", "why_tests_cant": "Tests build lengths 1024..4096 only; the two-stage resampling cascade (lengths above 2^10) and its upper limit are never reached.", "anchors": ["adwt/wavetable_data.cpp:WavetableData::WavetableData", "adwt/wavetable_data.cpp:downsampleWaveform"]}
{"id": "C03", "title": "build is not total on tiny power-of-two lengths", "statement": "A user expects build to return nullptr or a usable wavetable for waveform lengths 1 and 2, which are powers of two and which the documentation admits. It never does: for every sample value, waveform count and samplerate, length 1 lets std::length_error escape and length 2 indexes an empty vector.", "quantifier": "all waveform counts and samplerates, lengths 1 and 2", "why_tests_cant": "No test uses a length below 256, and the failing outcome for length 2 is undefined behaviour, which a test can pass by luck.", "anchors": ["adwt/wavetable_data.cpp:WavetableData::WavetableData", "adwt/crossfading.hpp:computeNumMipMapTables"]}
{"id": "C04", "title": "shape of a built wavetable", "statement": "A wavetable built from nw waveforms of length 2^L reports numWaveforms() = nw and numMipMapTables() = L-1; for each mipmap i < L-1 and waveform w, m, q, mDiff and qDiff have exactly 2^(L-i) = waveformLen(i) entries, phases(i) has one more, and waveformLen(i) >= 4.", "quantifier": "all L in 2..18, all nw, all sample values, all rounding modes, all resamplers", "why_tests_cant": "Checked by tests only for lengths 1024-4096 and nw <= 8; must hold for every size.", "anchors": ["adwt/wavetable_data.cpp:computeMQVector", "adwt/wavetable_data.cpp:computePhaseVectors", "adwt/wavetable_data.hpp:waveformLen"]}
{"id": "C05", "title": "phase grid is exact", "statement": "In a built wavetable phases(i)[k] is exactly k / waveformLen(i), starting at 0, ending at 1, strictly increasing, for every binary rounding mode of the float type.", "quantifier": "all wavetables, all mipmaps, all k, every rounding mode of binary floating point with at least 24 bits", "why_tests_cant": "Requires exactness of a float division for every entry of every table size.", "anchors": ["adwt/wavetable_data.cpp:computePhaseVector"]}
{"id": "C06", "title": "M and Q describe the linear interpolation of the samples", "statement": "In exact arithmetic, on every segment k of every mipmap table the line m[k]*x+q[k] passes through sample k at phases[k] and through sample (k+1) mod len at phases[k+1].", "quantifier": "all waveforms, all mipmaps, all segments", "why_tests_cant": "Unbounded sample values and sizes; tests use all-zero waveforms for the table tests.", "anchors": ["adwt/wavetable_data.cpp:computeM", "adwt/wavetable_data.cpp:computeQ", "adwt/wavetable_data.cpp:computeMQVector"]}
{"id": "C07", "title": "mDiff and qDiff describe the corner between neighbouring segments, including the wrap", "statement": "In exact arithmetic mDiff[k] = m[k+1]-m[k] (cyclically); qDiff[k] = q[k+1]-q[k] for inner corners, and the last one accounts for the line of segment 0 seen one period later; consequently mDiff[k]*phases[k+1]+qDiff[k] = 0 at every corner, wrap included.", "quantifier": "all waveforms, all mipmaps, all corners", "why_tests_cant": "The wrap-around corner matters only when a sample step crosses phase 1; no test checks table contents.", "anchors": ["adwt/wavetable_data.cpp:computeMQVector"]}
{"id": "C08", "title": "mipmap cascade uses the right source and ratio", "statement": "Mipmap table i is the resampling of the original waveform by 2^i for i <= 8, and the resampling by 256 of table i-8's samples for i > 8, so every table has total decimation 2^i and the resampler is never asked for a ratio above 256; and the slopes (and, in exact arithmetic, the lines) the tables hold are those of these resampled waveforms.", "quantifier": "all waveform lengths 2^L (2<=L<=18), all resamplers", "why_tests_cant": "Only waveforms of 2048 samples or more use ratios near the limit and only above 2^10 samples is the second stage reached.", "anchors": ["adwt/wavetable_data.cpp:WavetableData::WavetableData", "adwt/wavetable_data.cpp:downsampleWaveform"]}
{"id": "C09", "title": "rebuilding the waveforms is lossless in exact arithmetic", "statement": "updateSamplerate(sr, dur) leaves a wavetable equal to the one build() would produce from the original samples at the new samplerate; in particular number of waveforms, mipmap count and table contents do not change.", "quantifier": "all waveforms, all lengths, all pairs of samplerates", "why_tests_cant": "Tests compare two random runs with tolerance 4e-3 for two rates.", "anchors": ["adwt/wavetable_data.cpp:updateSamplerate", "adwt/wavetable_data.cpp:rebuildWaveforms"]}
{"id": "C10", "title": "updateSamplerate with a bad samplerate dereferences null", "statement": "A user expects updateSamplerate with a non-positive samplerate to be rejected like build rejects it. It never is: for every wavetable and every non-positive samplerate the failed build yields a null pointer which is dereferenced.", "quantifier": "all wavetables, all samplerates <= 0", "why_tests_cant": "Undefined behaviour is not observable by a passing test; no test calls it with a bad rate.", "anchors": ["adwt/wavetable_data.cpp:updateSamplerate"]}
{"id": "C11", "title": "transition points do not depend on the samplerate", "statement": "For every samplerate well inside the float range (2^-102 to 2^103) the mipmap transition points are the same, 2^(i+1)/len in cycles per sample: two wavetables built from the same samples at different samplerates differ only in the crossfade length.", "quantifier": "all samplerates, all lengths, every binary rounding mode", "why_tests_cant": "Quantifies over all samplerates and over the rounding of the division that computes the points.", "anchors": ["adwt/crossfading.hpp:computeMipMapScale"]}
{"id": "C12", "title": "updateSamplerate accuracy bound in float arithmetic", "statement": "In IEEE single precision (with subnormals, and no overflow for samples up to 2^100) and double intermediates, rebuilding changes each sample by at most (6*len+5)*A*2^-24, where A bounds the sample magnitude and is at least the smallest normal float; for len <= 2048 and |samples| <= 1 this is below the documented 4e-3.", "quantifier": "all sample values bounded by A, all lengths, all roundings", "why_tests_cant": "Documented accuracy is a worst case over all waveforms; the test draws one random waveform.", "anchors": ["adwt/wavetable_data.cpp:rebuildWaveforms", "adwt/wavetable_data.hpp:updateSamplerate"]}
{"id": "C13", "title": "octave selection", "statement": "While no crossfade is running the mipmap table chosen for a phase step d is the unique octave i with 2^i/len <= d < 2^(i+1)/len, clamped to 0 and to the last table; the choice is monotone in d.", "quantifier": "all d > 0, all lengths 2^L", "why_tests_cant": "d ranges over a continuum; boundary behaviour at exact powers of two is half-open.", "anchors": ["adwt/crossfading.hpp:findMipMapIndex"]}
{"id": "C14", "title": "returned mipmap indices are valid and adjacent", "statement": "Every call returns a lower table index inside the table range; whenever the upper weight is nonzero the upper index is exactly the lower one plus one and also inside the range.", "quantifier": "every sequence of phase steps of any length from construction, crossfade length >= 1", "why_tests_cant": "Depends on the whole history of interrupted and resumed crossfades; tests sample 1000 steps.", "anchors": ["adwt/crossfading.hpp:newIndices", "adwt/crossfading.hpp:updateIndices"]}
{"id": "C15", "title": "crossfade weights are a convex combination", "statement": "Every call returns two weights in [0,1] whose sum is exactly 1, also under IEEE round-to-nearest float arithmetic (the float sum is exactly 1.0F).", "quantifier": "every history, every crossfade length >= 1", "why_tests_cant": "Exact float equality for all quotients k/n cannot be sampled.", "anchors": ["adwt/crossfading.hpp:computeFading", "adwt/crossfading.hpp:newIndices"]}
{"id": "C16", "title": "every crossfade terminates on time", "statement": "A crossfade that starts at some call is over exactly num_samples calls later, whatever frequencies are requested meanwhile; then a single table is used (crossfades of up to 2^24 samples).", "quantifier": "every history, every input sequence during the fade", "why_tests_cant": "Inputs during the fade are arbitrary.", "anchors": ["adwt/crossfading.hpp:newIndices"]}
{"id": "C17", "title": "steady frequency settles on its own octave", "statement": "If the phase step stays in one octave, then after at most 2*num_samples+2 calls the returned tuple is (octave, 1, octave+1, 0) and remains so.", "quantifier": "every starting history, every steady octave", "why_tests_cant": "Liveness from any reachable state.", "anchors": ["adwt/crossfading.hpp:newIndices"]}
{"id": "C18", "title": "crossfade is click-free within an octave pair", "statement": "If a crossfade starts from the neighbouring octave and the requested octave stays within its two tables, the weight of every table changes by at most 1/num_samples between consecutive calls, in exact arithmetic; in IEEE floats by at most 1/num_samples + 2^-23 (up to 2^24 samples).", "quantifier": "every history satisfying the README rate limit", "why_tests_cant": "A continuity bound over all histories.", "anchors": ["adwt/crossfading.hpp:newIndices"]}
{"id": "C19", "title": "a crossfade shorter than one sample breaks playback", "statement": "A user expects finite weights also for crossfades shorter than one sample. With length 0 the first octave change divides 0 by 0; with a negative length a weight lies outside [0,1] after the first octave change and the fade never settles.", "quantifier": "all crossfade durations and samplerates giving num_samples <= 0", "why_tests_cant": "Tests only use the default 5 ms.", "anchors": ["adwt/crossfading.hpp:computeFading", "adwt/wavetable_data.cpp:build"]}
{"id": "C20", "title": "init contract", "statement": "init(nullptr) returns nonzero and changes nothing; init with a wavetable returns 0, selects waveform 0, and prevPhase/prevPhaseDiff report the given initial state.", "quantifier": "every oscillator state, every wavetable, every initial state in the documented range", "why_tests_cant": "Must hold from every state, not only a fresh oscillator.", "anchors": ["adwt/adwt.cpp:init", "adwt/adwt.cpp:resetInternals"]}
{"id": "C21", "title": "swapWavetable hands back the previous wavetable", "statement": "swapWavetable(nullptr) returns nullptr and changes nothing; otherwise it installs the new wavetable, returns exactly the one installed before, selects waveform 0 and clears the filter memory, so that no wavetable is lost or duplicated over any sequence of init/swap calls.", "quantifier": "every history of init and swap calls", "why_tests_cant": "Ownership conservation over all call sequences.", "anchors": ["adwt/adwt.cpp:swapWavetable"]}
{"id": "C22", "title": "resetInternals forgets the past only while no crossfade is running", "statement": "If no crossfade is in progress on the current table, then after resetInternals(phase, diff) all later outputs depend only on the arguments, the loaded tables, the selected waveform and the table last settled on, not on the phases, steps and filter memory of before. While a crossfade is in progress this is false: resetInternals continues the fade, and there are two histories with the same wavetable and waveform followed by the same resetInternals and the same phases that give different outputs.", "quantifier": "every pair of histories before the reset, every sequence after", "why_tests_cant": "Requires comparing all pairs of histories.", "anchors": ["adwt/adwt.cpp:resetInternals", "adwt/crossfading.hpp:resetPhaseDiff"]}
{"id": "C23", "title": "state getters report the last processed sample", "statement": "After process on a non-empty block, prevPhase() is the last phase given and prevPhaseDiff() the signed step to it; crtWaveform() and numWaveforms() do not change.", "quantifier": "every state, every block", "why_tests_cant": "All block contents and sizes.", "anchors": ["adwt/adwt.hpp:prevPhase", "adwt/adwt.cpp:processSampleFwd", "adwt/adwt.cpp:processSampleBwd"]}
{"id": "C24", "title": "block size does not matter", "statement": "Processing a phase sequence in one call or split into any number of consecutive blocks gives the same outputs and the same final state, in both direction modes.", "quantifier": "all sequences, all ways to split, all states, all rounding behaviours", "why_tests_cant": "Exponentially many splittings.", "anchors": ["adwt/adwt.cpp:processFwd", "adwt/adwt.cpp:processBi"]}
{"id": "C25", "title": "waveform isolation", "statement": "Output depends only on the selected waveform's tables: replacing the samples of any other waveform in the wavetable leaves every output unchanged.", "quantifier": "all wavetables, all histories without waveform change", "why_tests_cant": "Non-interference quantifies over pairs of wavetables.", "anchors": ["adwt/adwt.cpp:computeI0", "adwt/adwt.cpp:computeISumFwd", "adwt/adwt.cpp:computeISumBwd"]}
{"id": "C26", "title": "forward playback never leaves the tables", "statement": "For a built wavetable, from init with a positive initial step, every forward phase sequence (phases in [0,1), steps in (0,1/2]) is processed in process<kForward> with every assertion holding, every table access in bounds and no division by zero, interleaved arbitrarily with waveform changes in range and resets.", "quantifier": "all wavetables, all histories, all rounding modes, all filters, all SIMD widths", "why_tests_cant": "Memory safety over all histories and octave transitions.", "anchors": ["adwt/adwt.cpp:processSampleFwd", "adwt/adwt.cpp:computeFwdI"]}
{"id": "C27", "title": "bidirectional playback leaves the tables only after reaching phase 0 backwards", "statement": "For phases in [0,1) with consecutive phases distinct, process<kBidirectionnal> keeps every table access in bounds as long as phase 0 is never reached by a backward step. Without that restriction it does not: a sample reads out of bounds exactly when the previous backward step ended at phase 0 and the lower mipmap index drops, and from every reachable state (waveforms of at least 8 samples) there are legal phases which make this happen. A steady tone is enough: at 48 kHz with all defaults (crossfade, initial phase and step), a tone of -6000 Hz or -9000 Hz played from init on is read out of bounds at its 241st sample.", "quantifier": "all wavetables, all bidirectional histories, all rounding modes", "why_tests_cant": "The failing histories have measure zero under random testing, and the out-of-bounds read is silent.", "anchors": ["adwt/adwt.cpp:processSampleBwd", "adwt/adwt.cpp:processSampleFwd"]}
{"id": "C28", "title": "holding the phase", "statement": "Two equal consecutive phases abort debug builds in every state. In release builds, a held phase that is a multiple of 1/4 (a point of every table's grid) divides 0 by 0 in every state (or, after a backward step that ended at phase 0, may access a table out of bounds); the README example (an all-zero phase block after the default init) is such an input. A held phase that is not a point of the selected table's grid is processed without a fault when the position is carried over correctly to the selected table (the table does not change, or moves as in C36), and in exact arithmetic the sample is the filter's response to the constant value of the tables at that phase.", "quantifier": "all states, all held phases", "why_tests_cant": "Depends on exact coincidence with a grid point.", "anchors": ["adwt/adwt.cpp:processBi", "adwt/adwt.cpp:computeISumFwd", "README.md"]}
{"id": "C29", "title": "selecting a waveform out of range", "statement": "setWaveform performs no validation: with an index inside [0,numWaveforms) process is safe; with an index outside, the next process reads out of bounds.", "quantifier": "all indices, all states", "why_tests_cant": "Range over all ints; failure is undefined behaviour.", "anchors": ["adwt/adwt.hpp:setWaveform"]}
{"id": "C30", "title": "integer bookkeeping never overflows", "statement": "During any safe history all integer quantities (table positions, loop bounds, fade counter) stay within -1..2*len or 0..num_samples, so no int operation overflows and no shift is out of range.", "quantifier": "all histories", "why_tests_cant": "Overflow is undefined behaviour and needs a bound for every reachable state.", "anchors": ["adwt/adwt.cpp:processSampleFwd", "adwt/adwt.cpp:processSampleBwd"]}
{"id": "C31", "title": "bidirectional step is the shortest signed distance", "statement": "For phases in [0,1) process<kBidirectionnal> uses a step in [-1/2,1/2] congruent to the phase difference modulo 1; it is played forward iff that step is >= 0. The range bound also holds in float arithmetic.", "quantifier": "all pairs of phases", "why_tests_cant": "Continuum of inputs with boundary cases at exactly half a cycle.", "anchors": ["adwt/adwt.cpp:processBi"]}
{"id": "C32", "title": "forward and bidirectional modes agree on forward material", "statement": "For phase sequences whose forward steps lie strictly between 0 and 1/2, process<kForward> and process<kBidirectionnal> produce identical outputs and states. At exactly 1/2 across the wrap they differ.", "quantifier": "all forward sequences, all states, all roundings", "why_tests_cant": "Equality over all sequences; the exception is a single point.", "anchors": ["adwt/adwt.cpp:processFwd", "adwt/adwt.cpp:processBi"]}
{"id": "C33", "title": "a forward sample is the exact filtered integral", "statement": "In exact arithmetic a forward sample equals Re sum_k (e^{z_k} y_k + 2 r_k * integral_0^1 e^{z_k(1-t)} W(x+t d) dt) where W is the periodic linear interpolation of the selected mipmap table, however many table points are crossed and whether or not the step wraps. This is claimed where table changes carry the position over correctly (C36 characterises when; the limits of C84 are enough) and the phase is not in the subnormal corner of C48; elsewhere it is false (C36, C48, C101).", "quantifier": "all waveforms, all sizes, all start phases and steps, all filters", "why_tests_cant": "A closed form equal to an integral for all reals; tests never check audio content.", "anchors": ["adwt/adwt.cpp:computeI0", "adwt/adwt.cpp:computeISumFwd", "adwt/adwt.cpp:computeFwdI", "adwt/adwt.cpp:processSampleFwd"]}
{"id": "C34", "title": "a backward sample is the exact filtered integral", "statement": "Same as the forward statement for negative steps. This is claimed where table changes carry the position over correctly (C36 characterises when; the limits of C84 are enough) and the phase is not in the subnormal corner of C48; elsewhere it is false (C36, C48, C101).", "quantifier": "all waveforms, all sizes, all start phases and negative steps, all filters", "why_tests_cant": "As above; the wrap uses separate offset logic.", "anchors": ["adwt/adwt.cpp:computeISumBwd", "adwt/adwt.cpp:computeBwdI", "adwt/adwt.cpp:processSampleBwd"]}
{"id": "C35", "title": "crossfaded samples integrate the weighted mixture", "statement": "While two tables are mixed, the sample equals the same formula with W replaced by weight*W_i + weight_up*W_{i+1}. This is claimed where table changes carry the position over correctly (C36 characterises when; the limits of C84 are enough) and the phase is not in the subnormal corner of C48; elsewhere it is false (C36, C48, C101).", "quantifier": "all states in which a crossfade is running", "why_tests_cant": "All alignments of positions in two table resolutions.", "anchors": ["adwt/adwt.cpp:processSampleFwd", "adwt/adwt.cpp:processSampleBwd"]}
{"id": "C36", "title": "position tracking across octave changes", "statement": "When the table changes between two samples upward after a forward step, or downward by one octave, the sample is still the exact filtered integral. In the remaining cases this is false: there are legal histories for which the output is wrong after an upward change following a backward step, and after a downward jump of two octaves.", "quantifier": "all positions, all pairs of tables, both directions", "why_tests_cant": "Failure depends on the parity of the position; tests do not look at the audio.", "anchors": ["adwt/adwt.cpp:processSampleFwd", "adwt/adwt.cpp:processSampleBwd"]}
{"id": "C37", "title": "a whole run is the convolution of the waveform with the filter's impulse response", "statement": "In exact arithmetic, from zero filter memory, output n of a run of any length (any modes, any table changes carried over correctly, see C36 and C48) is Re sum_k 2 r_k integral_0^{n+1} e^{z_k(n+1-u)} V(u) du, where V(u) is the mixture of tables selected at time u, read at the piecewise-linear unwrapped phase.", "quantifier": "all run lengths, all phase sequences, all modes, all waveforms, all filters", "why_tests_cant": "Unbounded history.", "anchors": ["adwt/adwt.cpp:processSampleFwd"]}
{"id": "C38", "title": "output is bounded", "statement": "In exact arithmetic, starting from zero filter memory (after init or resetInternals), no legal history of any length makes the absolute output larger than G * max|table sample|: unconditionally with an explicit G of the filter and the waveform length; with an explicit G of the filter alone (at most 2.01, 41.7, 5.25, 13, 23 for the built-in types 1-5) as long as the position is carried over correctly (see C36, C48).", "quantifier": "all waveforms, all histories of any length", "why_tests_cant": "BIBO stability is a statement about infinite histories.", "anchors": ["adwt/filter_type.hpp:z", "adwt/adwt.cpp:processSampleFwd"]}
{"id": "C39", "title": "initial filter memory is forgotten exponentially", "statement": "In exact arithmetic, two oscillators that differ only in their filter memory produce outputs whose difference decays at least like e^{-0.29 n}, for every built-in filter; in float arithmetic this holds up to the rounding error of C60.", "quantifier": "all states, all phase sequences", "why_tests_cant": "Limit statement over all sequences.", "anchors": ["adwt/filter_type.hpp:z", "adwt/adwt.cpp:processSampleFwd"]}
{"id": "C40", "title": "output is linear in the waveform", "statement": "Scaling and adding waveforms scales and adds outputs for the same phase sequence (exact arithmetic, equal sizes, from reset).", "quantifier": "all pairs of wavetables, all scalars, all histories", "why_tests_cant": "Relational property over all waveform pairs.", "anchors": ["adwt/adwt.cpp:processSampleFwd"]}
{"id": "C41", "title": "constant waveforms settle with unit gain", "statement": "While only constant waveforms of value c are playing, whatever phases, modes and waveform changes are used and whatever the state it starts from, output n approaches G*c at the rate e^{-sigma(n+1)} (-sigma = rightmost pole), where G is the filter's gain at frequency 0; for every built-in filter |G-1| < 1.1e-3. Assumes a resampler that maps constants to constants; exact arithmetic.", "quantifier": "all constants, all phase sequences", "why_tests_cant": "Limit over infinite sequences.", "anchors": ["adwt/filter_type.hpp:r", "adwt/filter_type.hpp:z"]}
{"id": "C42", "title": "SIMD width does not matter", "statement": "Each filter coefficient is computed exactly once and by the same formula whatever the SIMD batch size; padding lanes never influence output; batch loads and stores stay inside the padded arrays, whose size, computed in float arithmetic, is the smallest positive multiple of the batch size that holds the coefficients. In exact arithmetic the outputs for two batch sizes are equal for all histories of calls. In rounded arithmetic (two builds with different batch sizes and different complex operations, but the same real arithmetic), the outputs of a run of any length differ by at most twice the bound of C60.", "quantifier": "all batch sizes >= 1, all coefficient counts, all inputs", "why_tests_cant": "One machine has one batch size.", "anchors": ["adwt/adwt.hpp:computeUpperNumCoeffs", "adwt/adwt.cpp:computeI0", "adwt/adwt.cpp:computeISumFwd", "adwt/adwt.cpp:computeISumBwd"]}
{"id": "C43", "title": "work per sample is bounded", "statement": "While the position is carried over correctly (C36, C48), a sample touches at most 5 corners of the lower table and at most 3 of the upper one, whatever the frequency and the rounding mode (real-time safety). In every execution the number of corners is below the table length, but without correct tracking no bound independent of the length holds: for every waveform of 2^L samples there is a legal forward history after which one sample with a step of half a table sample touches 2^(L-2)-1 corners.", "quantifier": "all histories, all lengths", "why_tests_cant": "Worst case over all histories.", "anchors": ["adwt/adwt.cpp:computeISumFwd", "adwt/adwt.cpp:computeISumBwd", "adwt/crossfading.hpp:findMipMapIndex"]}
{"id": "C44", "title": "integer floor and ceil", "statement": "maths::floor and maths::ceil return the mathematical floor and ceiling for every value whose truncation fits an int and is exactly representable as float.", "quantifier": "all values", "why_tests_cant": "Continuum, negative values included.", "anchors": ["adwt/maths.hpp:floor", "adwt/maths.hpp:ceil"]}
{"id": "C45", "title": "range reduction", "statement": "maths::reduce(v,t) for v in [-t, 2t) returns the unique representative of v modulo t in [0,t). At v = 2t, which its assertion admits, it returns t.", "quantifier": "all integers v and t; all reals", "why_tests_cant": "All values.", "anchors": ["adwt/maths.hpp:reduce"]}
{"id": "C46", "title": "power-of-two test", "statement": "maths::isPowerOfTwo(v) is true exactly for powers of two for 0 <= v < 2^20 with any log2f that is within one ulp. For v = 2^21+1 a correctly rounded log2f makes it answer true.", "quantifier": "all v in range, all admissible log2f implementations", "why_tests_cant": "A million values times all implementations of log2f; the failing values are beyond documented sizes.", "anchors": ["adwt/maths.hpp:isPowerOfTwo"]}
{"id": "C47", "title": "odd test", "statement": "maths::isOdd(v) is true iff v is odd, for every v >= 0. For negative odd v it is false.", "quantifier": "all ints", "why_tests_cant": "All ints.", "anchors": ["adwt/maths.hpp:isOdd"]}
{"id": "C48", "title": "phase zero is treated inconsistently for subnormal distances", "statement": "Position tracking tests for a grid point with a FLT_MIN threshold, the wrap correction with exact equality. For every phase that is a grid point or at least FLT_MIN away from all of them the two agree and samples are exact; for a phase strictly between 0 and FLT_MIN there is a history for which the sample evaluates the wrong line and the output is not the filtered integral.", "quantifier": "all phases in [0,1)", "why_tests_cant": "Subnormal phases are never drawn by the tests.", "anchors": ["adwt/maths.hpp:sign", "adwt/adwt.cpp:computeFwdI", "adwt/adwt.cpp:processSampleFwd"]}
{"id": "C49", "title": "legal calls never get stuck", "statement": "In every state reachable by legal calls, init and swapWavetable with a built wavetable, resetInternals with a nonzero step, setWaveform in range and (with a resampler honouring its contract) updateSamplerate to a positive samplerate succeed without assertion failure or undefined behaviour, and lead again to a reachable state with the expected shape.", "quantifier": "all reachable states, all legal arguments, all filters, all binary roundings", "why_tests_cant": "reachable states are infinite in number and depend on the whole call history", "anchors": ["adwt/adwt.cpp: init, swapWavetable, resetInternals", "adwt/adwt.hpp: setWaveform, updateSamplerate"]}
{"id": "C50", "title": "calls before init", "statement": "On an oscillator that holds no wavetable, process on a non-empty block, resetInternals, updateSamplerate and numWaveforms abort in debug builds and dereference null in release builds; setWaveform aborts in debug builds and is accepted in release builds.", "quantifier": "all oscillator states without wavetable, all arguments, both directions", "why_tests_cant": "undefined behaviour in release builds cannot be observed reliably by a test", "anchors": ["adwt/adwt.cpp: processFwd, processBi, resetInternals", "adwt/adwt.hpp: setWaveform, updateSamplerate, numWaveforms"]}
{"id": "C51", "title": "the tables used stay within one octave of the one demanded", "statement": "Whatever phase steps were used before, and also while a crossfade is running, every mipmap table that receives a nonzero weight is at most one octave away from the octave of the current phase step.", "quantifier": "every reachable crossfader state, every positive step, every rounding mode", "why_tests_cant": "Ranges over all histories of steps, including jumps over many octaves in the middle of a crossfade.", "anchors": ["adwt/crossfading.hpp:newIndices", "adwt/crossfading.hpp:findMipMapIndex"]}
{"id": "C52", "title": "a steady tone settles", "statement": "From any reachable state, whatever was played before (also in the middle of a crossfade, with any filter memory and after a lost position), if the phases advance by a constant d cycles per sample then the output approaches, like e^{-sigma n}, the filter's response to one table, the one of the octave of |d|, read at constant speed since forever; sigma is the distance of the slowest pole from the imaginary axis. If the crossfader is idle on that table, the deviation is explicit. A forward tone can be played from every reachable state not left at phase 0 by a backward step.", "quantifier": "every reachable state, every step (forward up to half a cycle, bidirectional below half a cycle), every wavetable, every stable filter, every sample index", "why_tests_cant": "A statement about the limit of infinitely long runs from every state.", "anchors": ["adwt/adwt.cpp:process", "adwt/crossfading.hpp:newIndices"]}
{"id": "C53", "title": "spectrum of a steady tone", "statement": "The limit tone of C52 is the sum over all integers k of the k-th harmonic of the table's linear interpolation times the filter's frequency response at 2 pi k d radians per sample: every harmonic, also those above the Nyquist frequency, is filtered in continuous time before it is sampled.", "quantifier": "every wavetable, table, step, phase, harmonic number and stable filter", "why_tests_cant": "An infinite sum over harmonics and a continuum of frequencies.", "anchors": ["adwt/adwt.cpp:process", "adwt/filter_type.hpp"]}
{"id": "C54", "title": "gains of the built-in filters", "statement": "At every frequency at or above Nyquist the gain is at most 0.63, 0.33, 0.55, 0.47, 0.092 for kType1..kType5; kType2 and kType5 stay below 0.002 from 0.61 times the samplerate on; no frequency is amplified by more than 0.11 %; kType1, kType3, kType4 have, within 1e-7, the squared gain of a Butterworth filter of order 2, 4, 6 with cutoff 0.45 times the samplerate.", "quantifier": "all real frequencies, all five built-in filters", "why_tests_cant": "A continuum of frequencies; a test samples finitely many.", "anchors": ["adwt/filter_type.hpp:FilterType", "adwt/filter_type.hpp:r", "adwt/filter_type.hpp:z"]}
{"id": "C55", "title": "aliasing energy", "statement": "In the tone of C52 the energy of the components that alias (k d at least half a cycle per sample) is at most the squared Nyquist gain of C54 times the energy which the table has in those components, and the total energy is at most 1.0011^2 times that of the table.", "quantifier": "every wavetable, table, step and built-in filter", "why_tests_cant": "Infinitely many harmonics, every waveform.", "anchors": ["adwt/adwt.cpp:process", "adwt/filter_type.hpp"]}
{"id": "C56", "title": "the documented limit on pitch changes", "statement": "Build a wavetable, init the oscillator at a phase and a positive step, then play any phases with positive steps none of which is less than half of one of the (crossfade length + 1) steps before it: the pitch falls by at most an octave within a crossfade, as the README asks (it may rise at any speed). Then every call succeeds and every output, forever, is the continuous-time filter applied to the crossfader's mixture of mipmaps read along the unwrapped phase; the position is never lost when tables change. (Playing backwards this is false: C36.)", "quantifier": "every wavetable, crossfade duration, initial phase and step, infinite sequence of phases and mixture of modes obeying the limit, any stable filter", "why_tests_cant": "Ranges over infinite sequences of pitches and all interleavings of crossfades.", "anchors": ["README.md:101", "adwt/crossfading.hpp:newIndices", "adwt/adwt.cpp:process"]}
{"id": "C57", "title": "bandwidth of the selected table", "statement": "For every step 0 < d <= 1/2 the table selected contains every harmonic of the waveform that lies below the Nyquist frequency, and none of its harmonics lies above the samplerate.", "quantifier": "every wavetable length, step and harmonic number", "why_tests_cant": "A continuum of steps, all lengths.", "anchors": ["adwt/crossfading.hpp:findMipMapIndex", "adwt/crossfading.hpp:computeMipMapScale"]}
{"id": "C58", "title": "spectrum of a tone from the samples", "statement": "Harmonic k of the linear interpolation of a table is the discrete Fourier coefficient k of its N samples times sinc^2(pi k/N), so the image k + m N of harmonic k is attenuated by at least (k/(k+mN))^2; the steady tone is the sum over all k of these, times the filter's frequency response at the component's true frequency; if the table contains harmonics up to H only, each component k that aliases is at most the filter's gain above Nyquist times (H/k)^2 times the strongest harmonic.", "quantifier": "every table, step, phase, harmonic and filter", "why_tests_cant": "An identity over infinitely many harmonics and every waveform.", "anchors": ["adwt/wavetable_data.cpp:computeMQVector", "adwt/adwt.cpp:process", "adwt/filter_type.hpp"]}
{"id": "C59", "title": "one sample in float arithmetic", "statement": "With every real and complex operation rounded (relative error at most eps <= 2^-21, gradual underflow and overflow included), one call of process for one sample, from any state reached by legal calls, gives a filter memory that differs from the exact anti-aliased integral of the mixture of tables by at most eps times an explicit constant of the filter, the memory, the tables and the number of table points passed; the output differs from the real part of the sum of the memories by at most 2 n eps times the sum of their magnitudes.", "quantifier": "every rounding of that accuracy, filter with poles and residues in the range of the built-in ones, wavetable of ordinary size (2^-40 to 2^24), reached state, mode and legal next phase (step at least 2^-100) whose table change carries the position over", "why_tests_cant": "All roundings, states, tables and real phases.", "anchors": ["adwt/adwt.cpp:processFwd", "adwt/adwt.cpp:processBi", "adwt/adwt.cpp:computeI0", "adwt/adwt.cpp:computeISumFwd", "adwt/adwt.cpp:computeISumBi"]}
{"id": "C60", "title": "rounding errors do not accumulate", "statement": "From zero filter memory, every output of a run of any length in rounded arithmetic differs from the exact continuous-time filter output by at most eps times the size of the tables (samples plus slopes) times a constant that depends only on the filter; it does not grow with the number of samples played.", "quantifier": "every rounding of that accuracy (underflow and overflow included), filter with poles and residues in the range of the built-in ones, wavetable of ordinary size, number of samples, sequence of modes and phases (steps at least 2^-100) whose table changes carry the position over", "why_tests_cant": "Runs of unbounded length, all roundings and tables.", "anchors": ["adwt/adwt.cpp:process", "adwt/adwt.cpp:processFwd", "adwt/adwt.cpp:processBi", "adwt/filter_type.hpp"]}
{"id": "C61", "title": "phases accumulated in float", "statement": "Phases computed as the shipped programs do, phase = fmod(phase + step, 1) in IEEE single precision, with every step between 2^-25 and 1/2 - 2^-24, are legal for process in both modes: they lie in [0,1), are never repeated, and the difference process computes is forward, within 2^-23 of the step; after n steps the phase is the sum of the steps up to whole cycles and an error of n/2^24. So the tones, the exponential sweep and the first benchmark never fail. With the numbers of the shipped benchmark (204800 frames, 20 Hz to half of 44100 Hz) the float ramp stays below half the samplerate and one pass succeeds for every wavetable and block size.", "quantifier": "every start phase, sequence of steps in range of any length, both modes, every wavetable, filter and reached state; every sweep whose first and last steps are in range", "why_tests_cant": "Sequences of any length, all float steps and phases.", "anchors": ["tests/tones_generator.cpp:generateTonePhase", "tests/sweep_generator.cpp:generateExpSweepPhase", "tests/benchmarks/utils_benchmarks.cpp:generateLinearSweepPhase", "adwt/adwt.cpp:process"]}
{"id": "C62", "title": "very low frequencies", "statement": "The lower limit 2^-25 on steps is exact: with a step of at most 2^-25 (0.0013 Hz at 44.1 kHz) the accumulated phase stops at or below 1/2 for good, and a long enough tone aborts a debug build; with a step above 2^-27 it stops exactly at 1/2 or at 1/4, and a long enough tone divides by zero in a release build.", "quantifier": "every frequency whose step is positive and at most 2^-25, every reached state", "why_tests_cant": "The stall happens after an unbounded number of samples (millions), depending on the step.", "anchors": ["tests/tones_generator.cpp:generateTonePhase", "adwt/adwt.cpp:processBi", "adwt/maths.hpp:reduce"]}
{"id": "C63", "title": "whole cycles do not matter", "statement": "Playing phases in [-1, 2) gives the same output, sample by sample, as playing their fractional parts, when no step is a whole cycle or more (nor exactly half a cycle in bidirectional mode): in exact arithmetic for all phases, in floats for phases that are multiples of 2^-23.", "quantifier": "every initial state, both modes, every sequence of phases", "why_tests_cant": "Sequences of any length of any phases.", "anchors": ["adwt/maths.hpp:reduce", "adwt/adwt.cpp:process", "adwt/adwt.cpp:resetInternals"]}
{"id": "C64", "title": "negative phases are safe", "statement": "A phase in [-1, 0), which reduce accepts, behaves as its fractional part and never leads to a read out of bounds. (False: phases in [-2^-25, 0) are reduced to exactly 1; a following sample reads out of bounds.)", "quantifier": "every reached state and phase", "why_tests_cant": "Only floats of tiny magnitude fail; every reached state must be shown to be led to the failure.", "anchors": ["adwt/maths.hpp:reduce", "adwt/adwt.cpp:process"]}
{"id": "C65", "title": "tones of negative frequency", "statement": "generateTone with a frequency -f, whose phases run backward through [-1, 0] by accumulation, plays without failure and writes the requested number of samples, when the step is in range and not within 2^-23 of an octave limit, from every reached state that is not fading away from that octave.", "quantifier": "every reached state, frequency, number of samples, wavetable, filter", "why_tests_cant": "Any number of samples, all frequencies and all earlier histories.", "anchors": ["tests/tones_generator.cpp:generateTone", "adwt/adwt.cpp:processBi"]}
{"id": "C66", "title": "the tones generator", "statement": "The whole program: for any list of frequencies in range (steps more than 2^-25 and at most 1/2 - 2^-23, not within 2^-23 of an octave limit; the first one not in the octave from an eighth to a quarter of the samplerate, which the crossfade started by init is leaving), each played backward and forward for at least the length of a crossfade on one oscillator, no call fails, the program returns 0 and writes two files of the requested length per frequency.", "quantifier": "every list of frequencies, wavetable, filter, length", "why_tests_cant": "Any number of tones and samples.", "anchors": ["tests/tones_generator.cpp:main", "tests/tones_generator.cpp:generateTone"]}
{"id": "C67", "title": "benchmarks with the default initial state", "statement": "The benchmarks that call init without initial phase and step (all but the first) fail on their first sample, as the sweep starts at the initial phase 0: a debug build aborts on an assertion, a release build divides by zero. The measured loop is run many times without resetting the oscillator: with assertions a second pass aborts at its first sample when the sweep ends below phase 1/2 - 2^-25; when it ends at phase 1/2 or above any number of passes succeeds. The first benchmark as shipped (204800 frames at 44100 Hz) ends its sweep between phases 0.39 and 0.44: its first pass succeeds and its second pass aborts.", "quantifier": "every wavetable, samplerate, number of frames, block size, rounding", "why_tests_cant": "All roundings and wavetables; -ffast-math hides the NaN in a test.", "anchors": ["tests/benchmarks/adwt_benchmark.cpp", "tests/benchmarks/utils_benchmarks.cpp", "adwt/adwt.cpp:processFwd"]}
{"id": "C68", "title": "filters as stored", "statement": "Rounding the decimal filter coefficients to float changes the frequency response of a built-in filter by at most 3e-5 at every frequency, so the documented gains (above Nyquist, in the Chebyshev stop band, overall, Butterworth curve) hold of the coefficients as the program stores them, up to that much.", "quantifier": "every built-in filter, every coefficients within a relative error of 2^-23 of the literals, every frequency", "why_tests_cant": "A continuum of frequencies and every rounding of the literals.", "anchors": ["adwt/filter_type.hpp"]}
{"id": "C69", "title": "reversal and rotation", "statement": "In exact arithmetic, playing a waveform in bidirectional mode backward gives the same output as playing the time-reversed waveform forward (in either mode), and playing a rotated waveform from rotated phases gives the same output as the original: the direction and origin of the phase have no effect of their own. The runs are those in which table changes carry the position over (C36; the limits of C84 are enough).", "quantifier": "every pair of wavetables whose tables are reversed or rotated copies, every built-in filter, every phase sequence, samplerate and length, any crossfade in progress", "why_tests_cant": "Every phase sequence of any length and every waveform.", "anchors": ["adwt/adwt.cpp:processFwd", "adwt/adwt.cpp:processBi", "adwt/wavetable.cpp"]}
{"id": "C70", "title": "tones and bounds in float arithmetic", "statement": "With every operation rounded: the output of a run of any length stays within the size of the tables times a constant of the filter plus the rounding error of C60; and once the step is steady and a single table is selected, the output approaches, exponentially and up to that rounding error, the response of the filter to that table read at constant speed forever.", "quantifier": "every accurate arithmetic, every wavetable, filter, phase sequence whose table changes carry the position over, any length", "why_tests_cant": "Runs of any length, all waveforms and roundings.", "anchors": ["adwt/adwt.cpp:processFwd", "adwt/adwt.cpp:processBi"]}
{"id": "C71", "title": "the documented limit on pitch changes, in floats", "statement": "C56 with every operation rounded (IEEE binary32, underflow and overflow included): build a wavetable, init the oscillator at a float phase and a positive step, then play float phases (zero or not subnormal) whose computed steps are positive and never less than half of one of the (crossfade length + 1) steps before. Then every call succeeds and every output, forever, is the continuous-time filter applied to the crossfader's mixture of mipmaps read along the exact unwrapped phase, up to eps times the size of the tables times a constant of the filter.", "quantifier": "every accurate rounding, wavetable of ordinary size, crossfade duration, initial phase and step, infinite sequence of float phases and mixture of modes obeying the limit, steps at least 2^-100, built-in filters (and any with poles and residues in their range)", "why_tests_cant": "Infinite sequences of pitches, all interleavings of crossfades, all roundings.", "anchors": ["README.md:101", "adwt/crossfading.hpp:newIndices", "adwt/adwt.cpp:process"]}
{"id": "C72", "title": "changing the waveform while playing", "statement": "setWaveform may be called before every sample. From zero filter memory, output n of a run of any length, in any mixture of modes, is the continuous-time filter applied to the signal which during sample i reads the waveform chosen last before that sample (with the crossfader's mixture of mipmaps) along the unwrapped phase: the phase is unbroken, there is no transient other than the filtered jump of the signal. In float arithmetic the same holds up to the rounding error of C60, and within the documented limit on pitch changes every call succeeds, forever, for every choice of waveforms.", "quantifier": "every sequence of waveforms, wavetable, phase sequence, modes, any length; every stable filter (exact), every accurate rounding (floats)", "why_tests_cant": "Arbitrary interleavings of waveform changes, pitch changes and crossfades of unbounded length.", "anchors": ["adwt/adwt.hpp:setWaveform", "adwt/adwt.cpp:process"]}
{"id": "C73", "title": "the reference oscillator of the benchmarks", "statement": "OvsOscillator::init reports an error exactly for a non-positive ratio or block size and then changes nothing. In a release build with IEEE floats, for a power-of-two waveform, ratio at most 8 and float phases in [0,1), every process call succeeds and hands the downsampler, for each phase, the periodic linear interpolation of the waveform (exactly in exact arithmetic, for every waveform length; within len*A/2^20 + 2^-140 in floats). Refuted: it works in debug builds (every call with legal arguments fails an assertion, because the range check of reduce is done on unsigned integers); every ratio accepted by init can be processed (a ratio above 8 overruns the downsampler's block); a phase of 1 is allowed (read outside the waveform). One pass of the JUCE benchmark with its shipped numbers succeeds in a release build, for every block size.", "quantifier": "every waveform, block size, ratio, phase sequence and number of earlier calls; every behaviour of the external downsampler", "why_tests_cant": "Universal over waveforms, phases and histories; unsigned wraparound and an overrun that usually does not crash.", "anchors": ["tests/benchmarks/source/ovs_oscillator.cpp:OvsOscillator::init", "tests/benchmarks/source/ovs_oscillator.cpp:OvsOscillator::process", "tests/benchmarks/source/downsampler_juce.cpp:DownsamplerJUCE::processDerived", "adwt/maths.hpp:reduce"]}
{"id": "C74", "title": "processing in place", "statement": "process may be called with an output span that is the phase span itself, starts before it, or does not overlap it: the samples, the state and any failure are those of separate buffers, and nothing else in memory changes. An output that starts k samples inside the phase span (0 < k) uses its own output as phases from the k-th sample on; for a silent waveform such a call, if at least two of the samples overlap, aborts in a debug build (or leaves the tables) although the call with separate buffers produces silence.", "quantifier": "every memory content, addresses, block size, state, direction, filter, rounding; the refutation: exact arithmetic, every silent wavetable, every offset k of at least 1, every legal block with at least two overlapping samples", "why_tests_cant": "All overlaps and contents of memory.", "anchors": ["adwt/adwt.hpp:process", "adwt/adwt.cpp:processFwd", "adwt/adwt.cpp:processBi", "adwt/span.hpp"]}
{"id": "C75", "title": "forward mode and steps beyond half a cycle", "statement": "In forward mode a release build accepts any sequence of phases in [0,1) as long as consecutive ones differ: no history of such blocks, mixed with legal bidirectional blocks, waveform changes and resets, faults. A sample is processed as a forward step of the phase difference, plus one if it is negative, so a move back by b is a step of 1-b forward (in (0,1]). In exact arithmetic the sample follows the formula of the method (C35) for every step below three quarters of a cycle whose table change carries the position over (C36). When the phase moves back within one segment of the table (a step of nearly a whole turn) the turn is not seen: if the samples at both ends of that segment are zero, the sample is computed as if the waveform were silent, which is not what the formula gives. A debug build aborts on every forward step that exceeds half a cycle by at least 2^-24.", "quantifier": "every history of blocks with changing phases, every reached state not at phase 0 after a backward step, every rounding; values: exact arithmetic, every waveform and step", "why_tests_cant": "All histories of phase moves; the lost turn depends on both phases lying in one table segment.", "anchors": ["adwt/adwt.cpp:processFwd", "adwt/adwt.cpp:processSampleFwd", "adwt/adwt.cpp:computeISumFwd"]}
{"id": "C76", "title": "hosts that flush subnormal numbers to zero", "statement": "If the floating-point unit flushes results below 2^-126 to zero (FTZ, usual in audio hosts and set by programs linked with -ffast-math), the accepted phases are the floats in [0,1) that are zero or at least 2^-100. With them every history of calls that is safe with gradual underflow is safe, and the output of a run of any length with any built-in filter stays within 2^-21 of the size of the tables times a constant of the filter of the exact one, as in C60. Whole runs to and fro, with any waveform chosen before each sample, within the limits of C84, succeed forever with the same bound (as C71, C72 and C84). The limit on the phases is needed: when the next phase differs from the last one by at most 2^-127 the difference is flushed and a debug build aborts in both modes, even though both phases are normal floats and the same step is legal with gradual underflow.", "quantifier": "every history of calls, every reached state, every built-in filter, run length and table; abort: every state and every pair of phases at most 2^-127 apart", "why_tests_cant": "Underflow of differences happens only for special pairs among all floats, and tests usually run without the flush mode.", "anchors": ["adwt/adwt.cpp:processFwd", "adwt/adwt.cpp:processBi", "adwt/adwt.cpp:processSampleFwd", "adwt/adwt.cpp:processSampleBwd"]}
{"id": "C77", "title": "the past is forgotten in float arithmetic", "statement": "Take a playing oscillator at any moment, whatever is in its filter memory (numbers up to 2^89: left by the loss of position after a fast pitch change, by another waveform, by another oscillator), and go on playing. With every operation rounded, its output is the exact output of the continuous-time filter fed with the waveform from this moment on, up to the rounding error of C60 and a remainder of the old memory that decays like 0.891^n for every built-in filter. Two oscillators that play the same way therefore come to agree up to twice the rounding error, whatever was in their memories.", "quantifier": "every reachable oscillator with any memory, rounding of that accuracy, filter in the range of the built-in ones, wavetable, run length, sequence of modes, waveforms and phases whose table changes carry the position over", "why_tests_cant": "Limit statement over all states and runs of unbounded length.", "anchors": ["adwt/adwt.cpp:processFwd", "adwt/adwt.cpp:processBi", "adwt/adwt.cpp:setWaveform", "adwt/filter_type.hpp"]}
{"id": "C78", "title": "changing the samplerate and resetting is a fresh start", "statement": "After updateSamplerate(sr) and resetInternals(p, d) an oscillator in any state, whatever it played before, cannot be told from a new one: everything it plays from then on, with any calls, is what a new oscillator plays that is initialised with state (p, d) and a wavetable that build makes at sr with the default crossfade duration, with the same waveform selected. In exact arithmetic that wavetable is the one built from the original samples; in float arithmetic one built from samples within (6*len+5)/2^24 of them, relative to the largest. Hence the unit test \"Update samplerate\" holds for all waveforms, samplerates, initial states and phases: in exact arithmetic runs A.1 and A.2, and B.1 and B.2, are equal; in floats, for waveforms of up to 2048 samples in [-1,1], all four runs are those of new oscillators with samples within 4e-3.", "quantifier": "every oscillator state, samplerate, initial state and sequence of later calls; every waveform, pair of samplerates and vector of phases of the test", "why_tests_cant": "The test runs one random waveform and one random vector of phases per seed and compares up to 4e-3.", "anchors": ["adwt/adwt.hpp:updateSamplerate", "adwt/adwt.cpp:resetInternals", "adwt/wavetable_data.cpp:updateSamplerate", "tests/oscillator_tests.cpp:Update samplerate"]}
{"id": "C79", "title": "the unit tests with random numbers, for all random numbers", "statement": "The sections \"Then processing bidirectionnal\" and those after a swap pass for every waveform, samplerate and vector of phases in which no two neighbours are equal, also cyclically, and phase 0 is not reached backwards; the sections \"Then processing forward\" for all float steps above 2^-25 and below 1/2, any number and size of blocks; the test \"Valid build\" for every waveform length from 4 to 2^18, number of waveforms, samples and positive requests; \"Invalid samplerate\", \"Invalid num_waveforms\" and \"Invalid waveform span\" for all sizes, samples, samplerates, numbers and offsets (of less than half the samples) of the kind they use; the test \"Update samplerate\" runs to its end. The remaining seeds exist and abort builds with assertions: a repeated phase, a random step 0, a request 0, and the step 1/2 after steps that end off the grid.", "quantifier": "every waveform, samplerate, sequence of random numbers, block size and number of blocks, filter and batch size", "why_tests_cant": "Each run of the tests uses one seed; the aborting draws have probability of about 2^-24 per sample.", "anchors": ["tests/oscillator_tests.cpp", "tests/wavetable_data_tests.cpp:Valid build", "adwt/maths.hpp:reduce", "adwt/adwt.cpp:process", "adwt/crossfading.hpp:newIndices", "tests/wavetable_data_tests.cpp"]}
{"id": "C80", "title": "repeated changes of the samplerate", "statement": "However often the samplerate of a playing oscillator is changed, with anything played, reset and selected in between, in exact arithmetic it holds the tables that build makes from the original samples. In float arithmetic after k changes it holds the tables of samples that differ by at most ((1+c)^k - 1) times the largest sample, c = (6*len+5)/2^24; for waveforms of up to 2048 samples in [-1,1] five changes stay within the documented 4e-3. A further change and resetInternals start an oscillator that plays like a new one from such samples.", "quantifier": "every history of calls with any number of changes of the samplerate, every waveform and samplerate", "why_tests_cant": "Statement over histories of unbounded length; the test makes three changes with one waveform.", "anchors": ["adwt/adwt.hpp:updateSamplerate", "adwt/wavetable_data.cpp:updateSamplerate", "adwt/wavetable_data.cpp:rebuildWaveforms"]}
{"id": "C81", "title": "polarity and silence, bit for bit", "statement": "Negating every sample of every waveform a program passes to build negates every output sample exactly, in float arithmetic too, and changes nothing else: the calls have the same outcomes (a failing call fails in the same way), the getters and the number of waveforms are the same. Consequently a program whose waveforms are all zero puts out exact zeros, whatever it does.", "quantifier": "every program over build, init, swapWavetable, process, setWaveform, resetInternals and updateSamplerate, legal or not; every filter and SIMD width; debug and release builds; every rounding that treats both signs alike", "why_tests_cant": "Exact relation between two executions for all programs and all inputs, including those that fail.", "anchors": ["adwt/adwt.cpp:processSampleFwd", "adwt/adwt.cpp:processSampleBwd", "adwt/wavetable_data.cpp:build", "adwt/wavetable_data.cpp:updateSamplerate"]}
{"id": "C82", "title": "what is left of a sound after switching to a silent waveform", "statement": "After setWaveform selects a waveform whose samples are all zero, the output depends only on what was played before: not on the phases, the mode, the step, the wavetable or the mipmap fades. Hosts that flush subnormal numbers to zero get exact zeros from the 6000th silent sample on. With gradual underflow the filters kType1, kType3 and kType4 put out exact zeros from the 1000th silent sample on; for every filter the output is at most 2^-140 from the 6400th on. For kType2 and kType5 the filter memory never becomes zero if the first section holds anything when the silence begins: every later sample is computed with subnormal numbers, so a user of these filters has to call resetInternals (or enable flush-to-zero) to get rid of them.", "quantifier": "every state reached by legal calls with filter memory below 2^125, every block of phases of any length, both modes, debug and release, every built-in filter (the second and third sentences: float arithmetic with binary32 rounding, with and without flushing)", "why_tests_cant": "Statement about every later sample of an unbounded block from every reachable state, and a negative statement (never reaches zero) that no finite run can confirm.", "anchors": ["adwt/adwt.cpp:processSampleFwd", "adwt/adwt.cpp:processSampleBwd", "adwt/adwt.hpp:setWaveform", "adwt/filter_type.hpp:z"]}
{"id": "C83", "title": "small causes, small effects", "statement": "Two sounds whose samples differ by at most delta and whose phases differ by at most theta, with the same waveforms and mipmap tables selected, differ in every output sample by at most the filter's gain times delta + Lambda*theta (Lambda: the steepest slope of the tables), plus the rounding errors of both in float arithmetic, however long they play: a small change of the input is never amplified or accumulated. Two oscillators set up and called alike with different samples select the same tables, and succeed in the same calls (C86).", "quantifier": "all pairs of wavetables of the same shape, samplerate and crossfade duration; all runs, of any length, forward or to and fro (within the limits of C84), with any waveform chosen before each sample; exact arithmetic, any good rounding, IEEE binary32 machines with any resampler", "why_tests_cant": "the bound must not depend on the number of samples played and holds for all pairs of inputs; a test compares a few pairs for a short time", "anchors": ["adwt/adwt.hpp:Oscillator::process", "adwt/adwt.cpp:AbstractOscillator::init", "adwt/wavetable_data.cpp:WavetableData::build"]}
{"id": "C84", "title": "Scratching: playing to and fro without losing the position", "statement": "A wavetable is built, an oscillator initialised, and process is called sample by sample with phases that go to and fro (forward and backward steps in any order, any waveform chosen before each sample). If the octave of the step never falls by more than one within a crossfade, if from two crossfades before a backward step to the sample after it the octave does not rise, and if a backward step ending exactly at phase 0 is not followed by a fall of the octave, then every call succeeds, forever, and every output is the output of the continuous-time filter fed with the chosen waveform read at the phase as it goes to and fro: exactly in exact arithmetic, and up to a bounded rounding error in IEEE floats. In particular any to and fro within one mipmap octave (not above the one of a step of 0.1) is played correctly.", "quantifier": "all filters, waveforms, lengths, crossfade durations, initial phases and steps, all infinite sequences of phases, modes and waveforms within the conditions, all IEEE hosts and resamplers", "why_tests_cant": "unbounded histories in which the correctness of a sample depends on which octaves were asked for up to two crossfades before", "anchors": ["adwt/adwt.cpp: processBi, processBlock, resetInternals", "adwt/crossfading.hpp: newIndices, updateIndices", "adwt/wavetable_data.cpp: findMipMapIndices"]}
{"id": "C85", "title": "The order in which the filter sections are added up does not matter", "statement": "The library is compiled with -ffast-math, so the compiler may add up the outputs of the filter sections of a sample in any order it likes, in any bracketing. Whatever order it takes, and even if it takes another one at every sample, every output stays, forever, within the same distance of the continuous-time filter's output as with the order of the source code; in exact arithmetic all orders give the same output. The order never feeds back into the oscillator's state. The runs are those in which table changes carry the position over (C36; the limits of C84 are enough).", "quantifier": "every bracketing and permutation of the sum, chosen anew for every sample; every built-in filter, every run of any length in both directions with any waveform chosen before each sample, every good rounding", "why_tests_cant": "A test runs one binary of one compiler; the property ranges over all orders a compiler may choose and all runs.", "anchors": ["adwt/adwt.cpp: Oscillator::processSampleFwd, Oscillator::processSampleBwd (std::accumulate)", "adwt/CMakeLists.txt (-ffast-math)"]}
{"id": "C86", "title": "the samples never influence what the library does, only what it plays", "statement": "Two programs over the API that differ only in the values of the waveform samples behave alike: they fail in the same call with the same error, or succeed with as many output samples, the same getters and the same mipmap tables and weights ever after; every call of process takes the same number of loop iterations. Hence a program that runs once with silent waveforms runs with all waveforms.", "quantifier": "every program over build, init, swapWavetable, process, setWaveform, resetInternals and updateSamplerate, legal or not; every pair of waveform contents; every filter, SIMD width and arithmetic; debug and release builds", "why_tests_cant": "A statement about pairs of runs of all programs with all sample values.", "anchors": ["adwt/adwt.cpp:process", "adwt/wavetable_data.cpp:WavetableData::build", "adwt/wavetable_data.cpp:updateSamplerate", "adwt/crossfading.hpp:newIndices"]}
{"id": "C87", "title": "Headroom: how far an output can exceed the wavetable's peak", "statement": "However the phase moves within the limits of C84 (forwards, to and fro, with crossfades; outside them a single output can be far larger, C101) and whatever waveform is chosen before each sample, no output of an initialised oscillator exceeds the peak of the mipmap tables multiplied by the peak gain of the anti-aliasing filter, i.e. the area under the absolute value of its impulse response. For the five built-in filters that factor is at most 1.1, 2.17, 1.31, 1.49 and 1.9 (0.83 dB, 6.73 dB, 2.35 dB, 3.47 dB and 5.58 dB), for the exact coefficients and for the coefficients as the compiler stores them; in float arithmetic a thousandth and the rounding error of the run come on top. The bounds are nearly reached: with two constant waveforms +1 and -1, chosen anew before each of 16 samples, the 16th output is at least 1.055, 1.894, 1.2785, 1.231, 1.718 (0.46, 5.5, 2.1, 1.8, 4.7 dB), whatever the phases.", "quantifier": "all wavetables, all (endless) runs of phases within the limits of C84 with any waveform chosen before each sample and any crossfades; all filters with decaying sections; the five built-in filters, exact and rounded coefficients; all IEEE binary32 hosts and resamplers", "why_tests_cant": "The worst case is reached only by a signal matched to the sign of the impulse response; a test sees the peaks of the waveforms and frequencies it tries, while clipping protection needs the supremum over all of them.", "anchors": ["adwt/adwt.hpp: Oscillator::processFwd, processBi, processSegment", "adwt/filter_type.hpp: r<Ftype>, z<Ftype>"]}
{"id": "C88", "title": "What is heard when a sound starts: the turn-on transient", "statement": "For a wavetable of constant samples c the output of any legal history of calls (both processing modes, crossfades, waveform changes, resets) is known exactly: each sample is c times the filter's step response at the number of samples since the last init or resetInternals, and depends on nothing else, neither on the phases nor on the speed. For the five built-in filters the first samples of that response are tabulated to 1e-5 (first sample 0.933, 0.148, 0.503, 0.126, 0.129 of the waveform; overshoot within three samples of 2.5, 15.4, 10.8, 4.5 and 18.1 percent), it never exceeds the filter's headroom, and the coefficients as the compiler stores them change it by at most 2.5e-4. So a reset in the middle of a steady sound is heard: the output falls back to that first value, and then overshoots.", "quantifier": "all constant wavetables, all legal histories of calls and resets, all filters; the five built-in filters, exact and rounded coefficients", "why_tests_cant": "A test hears one start at one phase and one speed; that the transient is the same for every phase, speed, direction, crossfade and placement of resets is a statement about all histories.", "anchors": ["adwt/adwt.hpp: Oscillator::init, resetInternals, processFwd, processBi", "adwt/filter_type.hpp: r<Ftype>, z<Ftype>"]}
{"id": "C89", "title": "Latency: by how much the output lags behind the phase", "statement": "Whenever the signal played (the selected mixture of mipmap tables, read at the unwrapped phase) has been within delta of a straight line for the last K samples, the output is the value this line had tau samples before the end of the current sample, times the filter's gain at frequency 0, where tau is the centre of gravity of the filter's impulse response; the error is at most the filter's headroom times delta plus a term that decays exponentially with K. For the five built-in filters tau is 0.5002, 1.3948, 0.9242, 1.3665 and 1.4721 samples, and after 64 samples the exponential term is below a millionth of the peak; in float arithmetic a 4096th of the peak (coefficients as stored) and the rounding error of the run come on top. This is the figure a host needs for delay compensation, and it does not depend on the pitch, the direction or the history. The runs are those in which table changes carry the position over (C36; the limits of C84 are enough).", "quantifier": "all wavetables, all runs of legal phases that carry the position over with any waveform chosen before each sample and any crossfades, every sample of the run preceded by a straight stretch, all lines and tolerances; all filters with decaying sections; the five built-in filters, exact and rounded coefficients; all IEEE binary32 hosts and resamplers", "why_tests_cant": "A test can measure the delay of one signal; that the same delay holds for every slow signal after every history, up to an explicit error, is a statement about all runs.", "anchors": ["adwt/adwt.hpp: Oscillator::processFwd, processBi, processSegment", "adwt/filter_type.hpp: r<Ftype>, z<Ftype>"]}
{"id": "C90", "title": "No clicks while the pitch changes; a click when the waveform changes", "statement": "With one waveform, consecutive outputs differ by at most the filter's peak gain times (the steepest slope of the tables times the longest phase step, plus four times the largest change of a table's weight times the tables' peak), plus what is still to be heard of the start of the sound (below a millionth after 64 samples with the built-in filters). While an oscillator started in an octave (not above the one of a phase step of a tenth) is played forwards with steps in that octave and the one above it, crossing between them as often as one likes, the weights change by at most one over the crossfade length per sample, so crossfades cause no clicks; in float arithmetic two rounding errors and a 2048th of the peak come on top. setWaveform in contrast does not crossfade: between two constant waveforms the first sample after the change differs from the last before it by 93, 15, 50, 13 and 13 percent of their difference for kType1..kType5, whatever the pitch. For any sequence of constant waveforms, one for each sample, the output is exactly the response of the filter to this sequence of levels (in exact arithmetic; C90_levels bounds the difference in floats). The runs are those in which table changes carry the position over (C36; the limits of C84 are enough).", "quantifier": "all wavetables, slopes and peaks, all runs of legal phases that carry the position over, every pair of consecutive samples; all crossfade lengths; all filters with decaying sections; the five built-in filters, exact and rounded coefficients; all IEEE binary32 hosts and resamplers; for the switch all pairs of constants, all phases and all switching times", "why_tests_cant": "A bound on the change between any two consecutive samples of any run, over all waveforms and all interleavings of crossfades.", "anchors": ["adwt/crossfading.hpp: CrossFader::newIndices", "adwt/adwt.hpp: Oscillator::setWaveform, processFwd, processBi", "adwt/filter_type.hpp: r<Ftype>, z<Ftype>"]}
{"id": "C91", "title": "NaN in the filter memory stays until the oscillator is reset", "statement": "In a release build the division by zero of a phase held at a multiple of 1/4 turns every section of the filter memory, and the output, into NaN, whatever was played before. From then on every sample written by process is NaN, through any further process, setWaveform and updateSamplerate calls, however legal; only resetInternals, init and swapWavetable with a wavetable end this, and they leave no trace of it. The usage example of the README (init at phase 0, then a block of zero phases) is such a case: with a wavetable of at least 32 samples nothing crashes and every sample of that block and of any forward block after it is NaN.", "quantifier": "all wavetables, histories, programs of further calls, filters, SIMD widths, roundings, and all behaviours of NaN that are closed under sums, products and quotients", "why_tests_cant": "the claim is about every continuation of every history that holds the phase, of any length", "anchors": ["adwt/adwt.cpp: processFwd, processBi, processSampleFwd, computeISumFwd, computeFwdI, resetInternals, init, swapWavetable", "README.md: usage example"]}
{"id": "C92", "title": "oscillators are independent of each other under any schedule", "statement": "Let any number of threads each use oscillators, wavetables and output buffers of their own, of the same or of different filter types, and let their calls (build, init, swapWavetable, process, setWaveform, resetInternals, updateSamplerate) be executed in any order. The whole runs without failure exactly when every thread alone would; every oscillator, every unique_ptr variable and every output then holds exactly what the thread would have found running alone; and two different interleavings of the same threads end in the same state. In particular an oscillator among others writes what a process with this single oscillator writes.", "quantifier": "all numbers of threads and oscillators, all programs over the API, all interleavings of their calls, all initial states, all rounding modes and filter types", "why_tests_cant": "the number of interleavings is exponential in the length of the programs, and hidden shared state would show only in some of them", "anchors": ["adwt/adwt.hpp: Oscillator (members)", "adwt/adwt.cpp: init, swapWavetable", "adwt/wavetable_data.cpp: WavetableData::build"]}
{"id": "C93", "title": "what the built-in filters leave of the audible frequencies", "statement": "Every harmonic of a steady tone up to 0.3 times the samplerate is in the output with at least 0.9137, 0.9989, 0.9809, 0.9961, 0.9989 (kType1 to kType5) of the amplitude it has in the table; up to 0.4 times the samplerate with at least 0.7846, 0.9945, 0.8482, 0.8967, 0.7956; never with more than 1.0011. Half of the power (-3 dB) is left at 0.450, 0.468, 0.450, 0.450 and 0.410 times the samplerate, to a thousandth of the samplerate: every frequency below that keeps more than half, every one above it less. The same gains hold for the coefficients as stored in float, up to 3e-5.", "quantifier": "all frequencies, all filter types, all wavetables and table indices, all steps of a tone, all harmonics", "why_tests_cant": "the bound holds on a continuum of frequencies, for every wavetable; a spectrum measured at some points does not exclude a dip between them", "anchors": ["adwt/filter_type.hpp: r<>, z<>", "adwt/adwt.cpp: Oscillator::processFwd"]}
{"id": "C94", "title": "the README's -90 dB figure is not kept, not even by a steady tone", "statement": "The README promises that no artifacts above -90 dB appear as long as the pitch does not vary by more than an octave in 5 ms. It is not so even if the pitch does not vary at all. A wavetable of 2^L samples (L at least 3) with a single pulse, played steadily at 3/2^(L+1) cycles per sample, where the full table is used, has its harmonic 3*2^(L-3) at 9/16 of the samplerate, heard at 7/16, where the tone has no harmonic. Whatever was played before, from some sample on every Fourier analysis of 2^(L+1) successive output samples finds a component there of at least 0.325, 0.0185, 0.2325, 0.1555, 0.008 (kType1 to kType5) times the level of the fundamental, i.e. -9.8, -34.7, -12.7, -16.2, -42 dB.", "quantifier": "all wavetable lengths from 8 samples on, all filter types, all resamplers (exact arithmetic), all states reached before the tone, all windows of 2^(L+1) output samples from some point on", "why_tests_cant": "the figure is a bound on all tones and wavetables, and the spectrum is a limit over all later output samples", "anchors": ["README.md: Cross-fading", "adwt/adwt.cpp: Oscillator::processFwd", "adwt/filter_type.hpp: r<>, z<>", "adwt/wavetable_data.cpp: WavetableData::WavetableData"]}
{"id": "C95", "title": "the level of the waveforms is the level of the output", "statement": "If the samples of every waveform given to build are multiplied by one factor, a program that calls the API the same way otherwise goes the same way: the same calls abort, fail or succeed, and if it succeeds every output sample is multiplied by that factor. In exact arithmetic this holds for every factor (0 and negative ones too, if the resampler is linear in that factor); in floating-point arithmetic for every power of two (steps of 6.02 dB), bit for bit, as long as nothing underflows or overflows.", "quantifier": "all programs of API calls (any number of builds, inits, resets, waveform changes, batches), all waveforms, all factors (powers of two in floats), all filter types, debug and release builds, fused or unfused multiplications (chosen the same way in both runs)", "why_tests_cant": "a test compares two runs of one program; the claim is about all programs, sample values and factors", "anchors": ["adwt/adwt.hpp: Oscillator", "adwt/adwt.cpp: Oscillator::processFwd, Oscillator::processBi", "adwt/wavetable_data.cpp: WavetableData::build", "adwt/maths.hpp: computeMQ"]}
{"id": "C96", "title": "A program that keeps to the documented preconditions runs, whatever it does with its objects", "statement": "Take a program over any number of oscillators, of any filter types, and any number of unique_ptr variables for wavetables, which builds wavetables, looks up mipmaps, changes samplerates, initialises oscillators, swaps wavetables (also handing one from one oscillator to another), plays blocks, selects waveforms, resets, passes null pointers, moves wavetables between variables and moves oscillators to new objects. If every call keeps to what the caller can check (sizes, rates, phases, steps, waveform numbers, no call but init or swapWavetable on an oscillator without a wavetable), the program runs to its end without any fault, the getters tell what the caller expects, and every oscillator has delivered as many samples as it was asked for. A moved oscillator goes on exactly as the old one would have; init makes any object, used or moved from, behave as a new one.", "quantifier": "all programs over any number of objects, all filter types, all arguments within the contract, every rounding of float arithmetic", "why_tests_cant": "the programs, the numbers of objects, the orders of calls and the phases are unbounded; a test runs one program", "anchors": ["adwt/adwt.hpp: Oscillator (whole public interface, lines 76-409)", "adwt/adwt.cpp: init, swapWavetable, resetInternals, process", "adwt/wavetable_data.hpp: WavetableData::build, updateSamplerate, findMipMapIndices"]}
{"id": "C97", "title": "findMipMapIndices is not a query", "statement": "WavetableData::findMipMapIndices, documented as returning the mipmap tuple for a phase step, changes the wavetable: on any wavetable just built with a crossfade of at least two samples, two calls in a row with the same step, of any octave but that of 0.1, return different tuples, and no table has changed. A call made before init, with another step, changes the samples that the oscillator plays after init.", "quantifier": "all wavetables, samplerates and crossfade durations of at least two samples, all positive steps outside one octave, every rounding", "why_tests_cant": "the repository's test of this function only checks each returned tuple on its own; that no step of any octave on any wavetable is answered twice in the same way ranges over all of them", "anchors": ["adwt/wavetable_data.hpp: findMipMapIndices (lines 163-169)", "adwt/crossfading.hpp: newIndices (lines 37-74)"]}
{"id": "C98", "title": "A repeated sequence of calls repeats its output in the end, bit for bit", "statement": "Take any oscillator in a usable state and any legal sequence of process, setWaveform and resetInternals calls that ends at the phase where it began (a looped bar, a whole number of periods of a tone, a vibrato cycle). Repeated for ever it never faults, and from some repetition on the output samples, and the whole state of the oscillator and its wavetable, repeat themselves exactly with a fixed number of repetitions as period: the output of a looped host does not drift.", "quantifier": "all reached states not at phase 0 with a negative step, all legal closed sequences of calls of any length, all filters, batch sizes and resamplers, debug and release builds, IEEE floats with or without flushing of subnormal numbers", "why_tests_cant": "it speaks of infinite executions, and neither the repetition where the cycle begins nor the period is bounded by anything a test can wait for", "anchors": ["adwt/oscillator.hpp: process, processFwd, processBi, setWaveform, resetInternals", "adwt/crossfading.hpp: newIndices"]}
{"id": "C99", "title": "Within one octave the oscillator plays in both directions, across phase 0, without faults or jumps", "statement": "Build a wavetable, initialise an oscillator with a step (of either sign) whose absolute value is below 1/8, then play any phases, in either mode, forwards, backwards or changing direction at every sample, whose steps all have absolute values in the octave of the first. Then no call ever fails even if phase 0 is reached backwards any number of times; only the mipmap of that octave is heard once the first crossfade is over; and in exact arithmetic every output, for ever, is the continuous-time filter applied to the waveform read along the unwrapped phase. In particular a steady tone played backwards below an eighth of the samplerate is safe in blocks of any length if init is told its step.", "quantifier": "all wavetables, all start phases, all steps below 1/8, all infinite sequences of phases and modes whose steps stay in one octave, every rounding (safety) or exact arithmetic (values), all filters", "why_tests_cant": "infinite sequences with arbitrarily many changes of direction; the neighbouring cases fail (C27, C36) and a test of one sequence says nothing about the next", "anchors": ["adwt/oscillator.hpp: init, process, processBi, processFwd", "adwt/crossfading.hpp: newIndices, init"]}
{"id": "C100", "title": "Backwards, a rise of the pitch through an octave is exact at some phases and clicks at the others", "statement": "Playing backwards in exact arithmetic, take the sample on which the lower mipmap moves up by k octaves (the end of a crossfade upwards, or the start of one over several octaves) while only one table is selected. Let N be the number of samples of the new table and X the last phase times N. If X is a whole number, or less than 2^-k below the next one, the output is the filtered integral of the table, as everywhere else. At all other phases it is not: it differs from it by exactly the answer of the filter to a ramp that was never played, the slope of the table after the next grid point continued back to the current phase; for the first filter this error has the sign of the bend of the table there whenever the grid point is at most half a step away. If playing turns forwards on that sample instead, at the same phases the output also contains an input that was never played: the difference between each table and the line of the segment before the right one.", "quantifier": "all wavetables, all states reached by API calls, all steps (after a backward one) that do not wrap, all numbers of octaves, all filters (the sign: kType1), exact arithmetic", "why_tests_cant": "whether it clicks depends on the phase at the moment the crossfade ends, a set of phases of measure 1 - 2^-k; the regression sweeps of the project only go forwards or hit some of these phases without comparing with the integral", "anchors": ["adwt/oscillator.hpp: processSampleBwd, computeBwdI"]}
{"id": "C101", "title": "A jump down over several octaves is exact at two samples of the new table in each old one; elsewhere the error is as large as the wavetable is long", "statement": "Playing forwards in exact arithmetic, take the sample on which the lower mipmap moves down by k octaves, from a table with m samples to one with N. Let c be the last grid point of the old table at or before the current phase. If the phase is at most 2/N after c (for k = 1: always), the output is the filtered integral of the mixture of tables, as everywhere else. Otherwise it is that integral plus, for each of the two tables, exactly the answer of the filter to an input that was never played: the difference between the table and the straight line through the two first points after c. Playing backwards the same holds mirrored: c is the first grid point at or after the current phase, and the line goes through the first two points before c. The error is not bounded by the level of the wavetable: for every length 2^L from 16 samples there are samples in [-1, 1] and a legal history of two samples, in either direction mode, after which an output of at most 10 - 2^L/128 is returned.", "quantifier": "all wavetables, all states reached by API calls, all forward steps after forward ones and backward steps after backward ones that do not wrap, all numbers of octaves, all filters (the loudness: kType1, all legal lengths from 16), exact arithmetic", "why_tests_cant": "the error depends on the phase at the moment of the jump and on the samples between the last coarse grid point and the current phase; sweeps pass every octave and so never jump, and no test compares a jump with the integral", "anchors": ["adwt/oscillator.hpp: processSampleFwd, computeFwdI", "adwt/wavetable.hpp: CrossFader"]}
{"id": "C102", "title": "resetInternals before a jump makes every following sample right, whatever was played before", "statement": "From every state an oscillator can be in, whatever was played before: call resetInternals with any phase and any positive step D, then process forward steps none of which is more than an octave below one of the crossfade before (phases not closer than 2^-126 to a table grid point without being on it, C48). Every call succeeds, and every output, forever, equals that of the continuous-time filter, started from rest at the given phase, fed with the selected mixture of tables along the unwrapped phase: exactly in exact arithmetic, up to the rounding bound in floats. In particular a steady tone of step D <= 1/2 is right from its first sample on. If a crossfade was in progress at the call, no step of the first crossfade may lie in an octave below that of D; without this condition the claim is false: there is a legal history (init, resetInternals, two samples, falling by one octave) whose second sample after resetInternals is wrong.", "quantifier": "all wavetables, all states reached by API calls, all phases and steps given to resetInternals, all infinite sequences of forward steps within the limit, all filters, exact and rounded arithmetic", "why_tests_cant": "the state at the time of the call (including a crossfade in progress, which resetInternals does not end) and the infinite sequence of steps after it are unbounded", "anchors": ["adwt/oscillator.hpp: resetInternals, processFwd, processBi", "adwt/crossfading.hpp: CrossFader::newIndices", "README.md: Setting a new frequency"]}
{"id": "C103", "title": "resetInternals before scratching: after a jump every sample is right in both directions, if backward steps stay clear of table changes", "statement": "Take any oscillator, whatever was played before, whose crossfade is over, settled on the mipmap octave of a step a. Call resetInternals with any phase and any nonzero step D, forward or backward, then process forward and backward steps in any order, with any valid waveform chosen before each sample. If no step is more than one mipmap octave below one of the crossfade before, and from two crossfades before each backward step to the sample after it the octave does not rise (the octave of a counted as the first), and after a backward step that ends exactly at phase 0 it does not fall, then every call succeeds and every output, forever, equals that of the continuous-time filter, started from rest, fed with the selected waveform read at the phase as it goes to and fro: exactly in exact arithmetic, up to the rounding bound in floats. In particular a steady tone with step D, forward or backward, whose octave is not above that of a, is right from its first sample on. The condition on the octave cannot be dropped: an oscillator settled on the lowest octave, reset to a backward step an octave higher, outputs a wrong sample at the end of the crossfade.", "quantifier": "all wavetables, all settled states reached by API calls, all phases and steps given to resetInternals, all infinite sequences of steps in both directions and waveform choices within the conditions, all filters, exact and rounded arithmetic", "why_tests_cant": "the history before the call and the infinite sequence of steps and waveform choices after it are unbounded", "anchors": ["adwt/oscillator.hpp: resetInternals, setWaveform, processBi, processBwd, processFwd", "adwt/crossfading.hpp: CrossFader::newIndices"]}
{"id": "C104", "title": "The spectrum of the output samples: what is heard at each frequency", "statement": "Whatever was played before, once the phases advance by d cycles per sample, the output samples have at every frequency f a component (the limit of their mean against the oscillation of frequency f): the sum of those harmonics k of the mipmap table in use for which k d - f is a whole number, each times the filter's frequency response at the harmonic's own frequency k d, with the phase it has after one step. With the built-in filters: at a frequency where no harmonic below the Nyquist frequency is heard, the component is at most the gain of the filter above Nyquist (C54) times the sum of the harmonics that alias to it, and zero if none does; at the frequency of a harmonic below Nyquist it is this harmonic, up to the sum of those that alias to it times that gain. At frequency 0: the mean of the output is the mean of the samples of the table times a gain within 0.11 % of 1, up to the harmonics that alias to 0. With every operation rounded, once the step is steady and a single table selected, the components are the same up to the rounding bound of C60.", "quantifier": "all wavetables, all reachable states, all steady steps in both modes, all frequencies", "why_tests_cant": "A limit over infinitely many samples and a sum over infinitely many harmonics, for all steps and frequencies.", "anchors": ["adwt/adwt.cpp:process", "adwt/filter_type.hpp:FilterType", "adwt/wavetable_data.cpp:computeMQVector"]}
{"id": "C105", "title": "The level of a steady tone", "statement": "Once phases advance by a constant step of d cycles per sample the samples that process returns have a mean power, and their level (root mean square) is that of the harmonics of the waveform below the Nyquist frequency, each weighted with the filter's gain at its own frequency, up to the sum of the amplitudes of the harmonics above it times the filter's gain there. So the loudness of a note does not depend on its phase, on what was played before, or on where its aliases fall.", "quantifier": "every filter type, wavetable, direction, steady step d that the mode can play, selected octave, initial phase, and everything played before", "why_tests_cant": "a mean over an endless run, for every waveform and every real step; a finite recording gives an estimate for one", "anchors": ["adwt/adwt.cpp: Oscillator::process, processSampleFwd, processSampleBwd", "adwt/filter_type.hpp: r, z", "adwt/wavetable_data.cpp: downsampleWaveform"]}
{"id": "C106", "title": "Debug and release builds play the same", "statement": "The library's assertions have no side effects. Any program over any number of oscillators and wavetables that runs in a debug build without a failed assertion ends in the release build (NDEBUG defined) in the same way, in the same state and with the same output samples, bit for bit, also if it ends in a fault; and a release build never ends in a failed assertion. So what was tested in a debug build holds for the release build, and every program that keeps to the documented preconditions plays the same in both.", "quantifier": "every program over the API, legal or not, from every state, every arithmetic, resampler, filter and SIMD width", "why_tests_cant": "a test compares two builds on one program", "anchors": ["adwt/adwt.hpp: Oscillator::process, setWaveform, numWaveforms", "adwt/adwt.cpp: processSampleFwd, processSampleBwd, computeISumBwd, resetInternals", "adwt/maths.hpp: reduce", "adwt/crossfading.hpp: newIndices, findMipMapIndex", "adwt/wavetable_data.cpp: WavetableData, computeMQVector, rebuildWaveforms"]}
{"id": "C107", "title": "The type of an oscillator decides what is heard and nothing else", "statement": "Filter, complex arithmetic and SIMD width of the oscillators of a program decide the samples it puts out and nothing else. Executed with any other oscillator types compiled with the same real arithmetic, every program over oscillators and wavetables either fails at both with the same fault, or runs with both and leaves the same wavetables in the same places, as many output samples, and every oscillator in the same state but for the filter memory: getters answer the same, octaves and crossfades are the same, and at every sample the loops over the table corners run equally often.", "quantifier": "every program of builds, inits, swaps, blocks, selections, resets, samplerate changes, table queries and moves, legal or not, any number of oscillators of any types, any filters (also without sections), any positive batch sizes, any real arithmetic", "why_tests_cant": "the unit tests instantiate three types and compare outputs on a few phase tracks; that control flow never depends on the filter has to hold for all programs, all states and all filters", "anchors": ["adwt/adwt.hpp: Oscillator", "adwt/adwt.cpp: process, processSampleFwd, processSampleBwd, computeFwdI, computeBwdI, resetInternals", "adwt/filter_type.hpp"]}
{"id": "C108", "title": "The waveforms of a wavetable do not depend on their company", "statement": "A waveform plays the same wherever it stands in a wavetable and whatever else is in it. Build two wavetables of any numbers of waveforms of the same length alike, play any history of calls on one, and on the other the same history with other numbers in setWaveform, such that the waveform selected is always the same one: both give the same outputs, bit for bit, or fail in the same way; also through changes of the samplerate, if the resampler keeps its contract. In particular waveform w of a wavetable plays like the only waveform of a wavetable built of it alone (which can be built), the order of the waveforms is irrelevant, and two equal waveforms in one wavetable are interchangeable.", "quantifier": "all wavetables of any two numbers of waveforms, all histories of blocks in both modes, selections, resets and samplerate changes, legal or not, all renumberings, all states of the oscillator before init, all filters, all rounding behaviours", "why_tests_cant": "the tests play one random wavetable at a time; the claim compares all wavetables sharing a waveform, over all histories", "anchors": ["adwt/adwt.hpp: setWaveform", "adwt/adwt.cpp: computeI0, computeISumFwd, computeISumBwd", "adwt/wavetable_data.cpp: computeMQVector, constructor", "adwt/wavetable_data.hpp: m, q, mDiff, qDiff, waveformLen"]}
{"id": "C109", "title": "How a sound begins: a crossfade that init has started", "statement": "A newly built wavetable is set to the octave of the step 0.1. An oscillator that is initialised with it and then plays in one octave, in any modes and directions, therefore begins with a crossfade unless that octave is its own: from the neighbouring table on the side of the starting octave, with the weight fl(fl(N-n-1)/fl(N)) in sample n of the N samples of a crossfade. For tables of at least 32 samples exactly the pitches between 1/16 and 1/8 of the samplerate begin with their own table alone; lower ones begin too dull (half of the harmonics fade in), higher ones with frequencies above half the samplerate, which fold back, and that fade out. From sample N-1 on only the table of the octave is used. The outputs are those of the filter applied to this mixture. Calling findMipMapIndices of the new wavetable often enough with steps of the octave to be played, before init, avoids it.", "quantifier": "every newly built wavetable, crossfade duration, initial phase and step, every sequence of phases with steps in the octave of the initial one, both modes and directions, every rounding (tables and weights), exact arithmetic (outputs)", "why_tests_cant": "the tests start at one pitch and compare with recordings that begin the same way; the claim is about every pitch and every sample", "anchors": ["adwt/crossfading.hpp: constructor, newIndices", "adwt/adwt.cpp: init, resetInternals", "adwt/wavetable_data.cpp:55"]}
