# libadawata in Lean 4: design of the formal model

## 1. What is modelled

All of the library code (`adwt/*.hpp`, `adwt/*.cpp`), function by function.

| source | Lean module | contents |
| --- | --- | --- |
| conventions | `Verif/Model/Basic.lean` | outcomes `R`/`Err`, environment `Env`, checked reads, casts |
| `adwt/maths.hpp` | `Verif/Model/Maths.lean` | floor, ceil, isOdd, isPowerOfTwo, sign, reduce (int and float) |
| `adwt/crossfading.hpp` | `Verif/Model/CrossFader.lean` | all of `CrossFader` |
| `adwt/wavetable_data.{hpp,cpp}` | `Verif/Model/Wavetable.lean` | all of `WavetableData` |
| `adwt/filter_type.hpp` | `Verif/Model/Filter.lean` | coefficient tables, numCoeffs, zPow2, zExp |
| `adwt/adwt.{hpp,cpp}` | `Verif/Model/Osc.lean` | all of `Oscillator` |
| `tests/{tones,sweep}_generator.cpp`, `tests/benchmarks/{adwt,juce}_benchmark.cpp`, `adwt_profile.cpp`, `utils_benchmarks.cpp` | `Verif/Model/Drivers.lean`, `Ovs.lean` | the programs that drive the library |
| `tests/oscillator_tests.cpp`, `wavetable_data_tests.cpp` | `Verif/Model/Tests.lean`, `TestsBuild.lean` | the unit tests |
| `tests/benchmarks/source/*` | `Verif/Model/Ovs.lean` | the reference oscillator (JUCE's oversampler is a parameter) |
| the loop of `process` | `Verif/Model/Alias.lean` | the same loop with both spans in one memory (C74 only) |
| the same sample functions | `Verif/Model/Work.lean` | copies that also count loop iterations (C43 only; an erasure theorem ties them to `Osc.lean`) |
| samples with step 0 (release) | `Verif/Model/Held.lean` | continued past the division by zero; the effect of the quotient is a parameter (C91 only; `C91_extends` ties it to `Osc.lean`) |

Every C++ function becomes a total Lean function into `R α = Except Err α`. `Err` makes each way of
going wrong a *distinct outcome* instead of assuming it away: failed `assert` (debug builds),
out-of-bounds access, null dereference, division by zero (NaN or infinity; meaningless under the
`-ffast-math` the library is compiled with), float-to-int cast out of range, escaping
`std::length_error` and `std::runtime_error`. `Env.dbg` says whether assertions are compiled in, so a
property can be proved of debug and release builds.

### Numbers
* `int` and `size_t` are `Int` and `Nat`; C30 proves the bounds which make this faithful.
* `float` values are elements of an arbitrary linearly ordered field `K` with floor. Every float
  operation is wrapped in a rounding function `fl : K → K`, a parameter. `Rounding fl`
  (`Verif/Num/Rounding.lean`) collects the laws used: monotone, idempotent, floats closed under
  negation, `k·2^n` exact for `|k| ≤ 2^24` and `-126 ≤ n ≤ 103`, floats scaled up by powers of two stay
  floats below `2^127`, and differences of different floats do not round to zero if each is zero or at
  least `2^-100`. The laws are *proved* for exact arithmetic (`fl = id`), for IEEE single precision with
  subnormals and saturation at `±2^128` standing for the infinities (`ieee32`, `Verif/Num/Rne.lean`), for
  the same with subnormal results flushed to zero (`ftz32`, `Verif/Num/Ftz.lean`), and for 24 bits with
  unbounded exponent (`rne24`). So every theorem that assumes only `Rounding` covers gradual underflow,
  flush-to-zero mode and overflow. Phases are floats for which differences do not vanish (`IsPhase`): all
  floats if underflow is gradual, those that are zero or at least `2^-100` otherwise (C76).
  `FLT_MIN` as a threshold in `maths::sign` is modelled. Samplerates are floats that stay floats when
  scaled by `2^k`, `|k| ≤ 24` (`IsRate`; every IEEE float between `2^-102` and `2^103` is one,
  `isRate_ieee32`). `computeM`/`computeQ` work in `double`: `Env.dbl` rounds each of their
  intermediate operations, `fl` the returned value; the only law is that a float is a double.
* Contraction: in each expression `a*b + c` over floats (`computeI0`, the rebuilding of the samples, the
  reference oscillator) and in the `a*b - c*d` over doubles of `computeQ` the compiler may keep a product
  unrounded (fused multiply-add; GCC's default when the target has FMA, which the README lists). `Env.mad`
  and `Env.dmm` may be any function that returns one of the permitted results, so every theorem covers
  both code generations and any mixture of them (as a function of the operands). `envFma` is an instance that contracts; it is
  proved different from `envI`, which does not. Complex multiply-adds fall under the error bounds of
  `Accurate`.
* `std::complex<float>` is an arbitrary type `C` with *arbitrary* operations (no laws) in everything
  that concerns control flow, indices, safety, blocks, getters, work. Those theorems therefore hold
  for rounded complex arithmetic too. Theorems about the value of the output instantiate `K = ℝ`,
  `C = ℂ`, `fl = id` (`ExactSys`); C59, C60, C70 and C71 take rounded real and complex operations with a bound on
  the error (`FloatSys`: relative, absolute below `2^-80`, nothing promised above `2^110`), met by IEEE
  binary32 with underflow (gradual or flushed) and overflow and the usual complex formulas
  (`Num/CFloat.lean`, generic in the rounding).
* `log2f` and libsamplerate's `src_simple` are parameters (`Env`). Hypotheses on them (`Log2Spec`,
  `Lawful`) are explicit in the statements and shown satisfiable.
* xsimd: the batch size `B` is a parameter; lane-wise operations; `fma` etc. are parameters.

### Not modelled
Memory allocation failure, alignment, iostream output, `extras/`, CMake, threads inside the library
(the library has none), compiler reassociation under `-ffast-math` (except in the sum of the
filter sections, C85), NaN as a value (an operation that
makes one is an error outcome), underflow of `double` (its operands are floats or products of two),
the conversion of the decimal filter coefficients to `float` in the exact-arithmetic theorems (C68 bounds
its effect on the frequency response; the instances of C59 and C60 round them).

## 2. Specifications

`Verif/Spec/*.lean` is the vocabulary of the statements; it mentions model *types* and API functions
but no helper of the proofs.

| file | contents |
| --- | --- |
| `Log2`, `Lawful` | what is assumed of `log2f` and the resampler |
| `Octave` | the octave of a step, weights, reachable crossfaders |
| `Tables` | waveforms, the mipmap cascade, the phase grid |
| `History`, `Reached`, `Legal` | sequences of API calls and the states they reach |
| `Integral`, `Playing`, `Convolution` | periodic linear interpolation, the filter integral of one sample and of a run |
| `Float` | accuracy of rounded complex arithmetic, the error constant |
| `Decay`, `Bounded`, `Tone`, `Dft`, `Slow` | pole positions, gains, steady tones, spectra, the documented pitch limit |
| `Headroom`, `TurnOn`, `Latency`, `Click`, `Stored`, `SumTree`, `Nan`, `Bank`, `Levels`, `Passband`, `Excess`, `Pulse`, `Volume`, `Program`, `Repeat` | impulse response and peak gain; step response; centre of gravity of the impulse response; what is left of a start, two octaves; coefficients as stored; orders of summation; numbers that behave like NaN; programs with many oscillators and schedules; nearly constant waveforms; gains, levels of a frequency in samples; scaled programs; the contract of whole programs; repeated sequences of calls |
| `Scratch`, `Live`, `Sensitive`, `Symmetry`, `Silence`, `Outputs` | runs in both directions, runs from any filter memory, wavetables that differ little, reversed and rotated waveforms, silent waveforms, what is heard of a history |
| `Polarity`, `Oblivious`, `Release`, `Tests` | programs over the whole API, programs that differ only in samples, histories a release build accepts, the histories of the unit tests |
| `Wedge` | the answer of the filter to a ramp that ended one sample ago |
| `Lines`, `Power` | components of a sequence of samples, harmonics heard at a frequency, mean power |
| `LeadIn` | the tables and weights with which a sound begins |
| `BuildMode`, `SoundOnly`, `Renumber` | outcomes with and without assertions, states that differ only in the filter memory, histories with other waveform numbers |
| `Missed` | the answer of the filter to the difference between a function and a straight line, before a step |
| `Host`, `FtzHost`, `Drivers` | machines (IEEE, flush to zero), what the shipped programs may be asked to play |

## 3. Properties and how they are proved

Statements are in `properties.jsonl`; theorems per property in `MANIFEST.json` (107 properties, over 340
theorems, `Verif/Props/*.lean`). Beside the theorems, `example`s and the files `Applied*`, `Examples`, `Concrete`,
`Type1`, `ExactExamples` show that the hypotheses are met, with every built-in filter where one occurs.
Where the code falsifies a property one would expect, the negation is proved for as wide a class of
inputs as it holds, and the part that is true is proved under the exact condition.

| id | property | modelled how / proved how |
| --- | --- | --- |
| C01 | build rejects malformed arguments | `build` on every argument; case split on its guards. Lengths from 2^20 on (where the length test can be fooled): the rounded phase grid of an arbitrary length has no zero gaps (Sterbenz), so the constructor reaches the empty intermediate table and throws `runtime_error`. |
| C02 | build succeeds exactly on usable power-of-two lengths | Induction over the mipmap index of the constructor loop, invariant "intermediate table k is filled for k ≤ min(i, num_inter)"; resampler contract as hypothesis. |
| C03 | build is not total on tiny power-of-two lengths | Refutation, lengths 1 and 2 computed symbolically for all samples. |
| C04 | shape of a built wavetable | Same induction as C02, lengths of all lists. |
| C05 | phase grid is exact | `Rounding` laws: k/2^n is a float. |
| C06 | M and Q describe the linear interpolation of the samples | Field algebra over the result of `computeMQVector`. |
| C07 | mDiff and qDiff describe the corner between neighbouring segments, including the wrap | Field algebra over the result of `computeMQVector`, with the wrap. |
| C08 | mipmap cascade uses the right source and ratio | The constructor loop refines the recursive specification `mipSamples` of the cascade. |
| C09 | rebuilding the waveforms is lossless in exact arithmetic | rebuild ∘ build = id on samples, hence equality of all tables. |
| C10 | updateSamplerate with a bad samplerate dereferences null | Refutation for every wavetable. |
| C11 | transition points do not depend on the samplerate | `Rounding` laws: the scale list is 2^(i+1)/len whatever the samplerate. |
| C12 | updateSamplerate accuracy bound in float arithmetic | Forward error analysis with |fl x − x| ≤ 2^-24 |x|. |
| C13 | octave selection | Induction over the scale list. |
| C14 | returned mipmap indices are valid and adjacent | Crossfader invariant `Inv` over arbitrary call sequences. |
| C15 | crossfade weights are a convex combination | Invariant; the float sum by a case analysis of round-to-nearest-even. |
| C16 | every crossfade terminates on time | Invariant and induction over the length of the fade. |
| C17 | steady frequency settles on its own octave | A ranking function (`settleTime`) that decreases with every call. |
| C18 | crossfade is click-free within an octave pair | Invariant; difference of two consecutive weights. |
| C19 | a crossfade shorter than one sample breaks playback | Refutations for length 0 and for negative lengths. |
| C20 | init contract | Direct, from every state. |
| C21 | swapWavetable hands back the previous wavetable | Direct; sequences of swaps by induction. |
| C22 | resetInternals forgets the past only while no crossfade is running | The result of `resetInternals` as a function of the wavetable; counterexample with a running fade. |
| C23 | state getters report the last processed sample | Induction over the block. |
| C24 | block size does not matter | Induction over blocks. |
| C25 | waveform isolation | Relational induction over sample processing. |
| C26 | forward playback never leaves the tables | Oscillator invariant (`OscSafe`), `Ok` rules for `R`, induction over histories. |
| C27 | bidirectional playback leaves the tables only after reaching phase 0 backwards | As C26 with `OscPlay`; exact characterisation of the failing step; refutation from every reached state, and by a steady tone with all defaults (invariant over the crossfade, `Props/Backward.lean`). |
| C28 | holding the phase | Computed from arbitrary states; positive part from the invariant. |
| C29 | selecting a waveform out of range | Computed from arbitrary reached states. |
| C30 | integer bookkeeping never overflows | The invariant of C26/C27 with explicit ranges. |
| C31 | bidirectional step is the shortest signed distance | Order reasoning over `Rounding`. |
| C32 | forward and bidirectional modes agree on forward material | Order reasoning over `Rounding`; exact set of disagreement. |
| C33 | a forward sample is the exact filtered integral | Antiderivatives on the crossed segments telescope to an interval integral (Mathlib's FTC). |
| C34 | a backward sample is the exact filtered integral | As C33, reversed. |
| C35 | crossfaded samples integrate the weighted mixture | C33/C34 for both tables and linearity of the integral. |
| C36 | position tracking across octave changes | Arithmetic of shifts against floor/ceil; two refutations by explicit histories. |
| C37 | a whole run is the convolution of the waveform with the filter's impulse response | Induction over the run, gluing integrals. |
| C38 | output is bounded | Norm estimates per sample and a geometric series; C38_gain evaluates rational bounds. |
| C39 | initial filter memory is forgotten exponentially | Difference of two runs contracts by e^(Re z). |
| C40 | output is linear in the waveform | Relational induction over three runs. |
| C41 | constant waveforms settle with unit gain | The constant is a fixed point, then C39; the DC gain is evaluated from the decimal coefficients. |
| C42 | SIMD width does not matter | Induction over batches, any width. Rounded: both builds go through the same crossfader states, since these depend on the steps only; so both outputs are near the same exact one (C60). The padding: a float lies between the quotient and the next integer. |
| C43 | work per sample is bounded | An instrumented copy of the sample functions that counts loop iterations (`Model/Work.lean`), an erasure theorem that it computes the same, and bounds on the counter. |
| C44 | integer floor and ceil | Direct, with truncation semantics. |
| C45 | range reduction | Direct; integers by Euclidean division. |
| C46 | power-of-two test | log2 specification; refutation with a correctly rounded log2. |
| C47 | odd test | Direct. |
| C48 | phase zero is treated inconsistently for subnormal distances | Computation with and without the `FLT_MIN` threshold; refutation by an explicit history. |
| C49 | legal calls never get stuck | The constructors of `Reached` all succeed from every reached state. |
| C50 | calls before init | Direct. |
| C51 | the tables used stay within one octave of the one demanded | Crossfader invariant. |
| C52 | a steady tone settles | C35 once the crossfader has settled (C17); deviation from the tone contracts. |
| C53 | spectrum of a steady tone | Fourier coefficients of a convolution; absolute summability by Bessel and 1/ω decay. |
| C54 | gains of the built-in filters | Gain as a quotient of polynomials in ω²; a certificate of nonnegative coefficients checked on rationals by kernel reduction. |
| C55 | aliasing energy | C53 and C54, summability. |
| C56 | the documented limit on pitch changes | Invariant: the table faded in was requested at most one fade ago; so the lower table never drops by two; then C37. |
| C57 | bandwidth of the selected table | Order reasoning on `IsOctave`. |
| C58 | spectrum of a tone from the samples | Integrals over the segments, summation by parts on the cycle. |
| C59 | one sample in float arithmetic | Forward error analysis of every operation of a sample (`Proofs/Float*.lean`): corners, segments, sums, mixture, memory. |
| C60 | rounding errors do not accumulate | The error obeys E ≤ (1+4ε)\|e^z\| E + ε K, which has an invariant bound as \|e^z\| < 1. |
| C61 | phases accumulated in float | Grid argument on sums in [1/2, 3/2) and `fmod` exact; induction over the steps; C26 for `process`. |
| C62 | very low frequencies | A step ≤ half an ulp of 1/2 is absorbed; the phases increase through finitely many floats. In release builds the phase stops at 1/2 or 1/4, points of the grid of every table, and C28 applies. |
| C63 | whole cycles do not matter | Simulation of two runs whose reduced phases and differences agree. |
| C64 | negative phases are safe (false) | `1 + q` rounds to 1; then `adjustJ` runs off the table, as in C27. |
| C65 | tones of negative frequency | Simulation by a shadow run shifted by one cycle; constant octave, so no table change when 0 is passed. |
| C66 | the tones generator | C61 and C65 alternately, by induction over the frequencies; the fade ends within each tone. |
| C67 | benchmarks with the default initial state | Direct: the first difference is 0. Second pass: exact values of the float additions of the sweep, one power of two after the other (Proofs/ExactSweep), then C61_drift. |
| C68 | filters as stored | Perturbation of each partial fraction `r/(iω-z)`, bounded below in modulus by `-Re z`; the constants are evaluated by the kernel from the decimals. |
| C69 | reversal and rotation | Two tracked runs with corresponding phases give the same segments, table indices and filter states (C35's mixture under the change of variable `a u + c`). |
| C70 | tones and bounds in float arithmetic | C60, and the distance between its integral and that of the whole past, which shrinks by `e^{Re z}` per sample. |
| C71 | the documented limit on pitch changes, in floats | The invariant of C56 holds for the rounded steps; then C60, whose constant needs no bound on the step since no sample passes more than 4.4 table points; a float phase that is not subnormal is never too close to a table point. |
| C72 | changing the waveform while playing | The inductions of C37 and C60 with the waveform a function of the sample; the invariant of C56 does not depend on the waveform. |
| C73 | the reference oscillator of the benchmarks | Model/Ovs.lean; floor of a rounded product below the length, error bound of the straight line by hand; induction over the calls keeps the sizes. `Proofs/RealSweep.lean` follows the float ramp of the shipped benchmarks through the powers of two (C61, C73). |
| C74 | processing in place | Model/Alias.lean, a copy of the loop on one memory; induction over the samples. The refutation uses C38 with bound 0 and C28. |
| C75 | forward mode and steps beyond half a cycle | The closed form of a forward sample only needs the assertion to pass, which a release build always does; histories by induction. The index arithmetic of the wrap is right below 3/4 of a cycle because every table has at least four samples. The lost turn: no corner terms when both phases are in one segment; the missing ones are 4d e^{..}(e^{z/(4d)}-1)^2. |
| C76 | hosts that flush subnormal numbers to zero | The laws of `Rounding` for `ftz32`: floats of magnitude at least `2^-100` are multiples of `2^-123`, so their differences are normal; the error bounds of the complex operations for any rounding with relative error `2^-24` and absolute error `2^-126`; then C27 and C60. The abort by computation. |
| C77 | the past is forgotten in float arithmetic | The error recursion of C60 with the old memory as a further error: each sample multiplies it by at most `(1 + 4 eps) e^(Re z)`, which is at most `(1 + s/2)/(1 + s)` for `s = -Re z`; `C39_float` is the corollary for two oscillators. |
| C78 | changing the samplerate and resetting is a fresh start | `updateSamplerate` stores a wavetable made by `build` (C09, C12 say from which samples); `resetInternals` overwrites everything else but the waveform, which does not enter into it; so the rest of the run is that of `init`. The unit test is a composition of these. |
| C79 | the unit tests with random numbers, for all random numbers | The tests are modelled as programs with the random numbers as arguments; C26/C27 give the runs. The forward sections need that adding a float below 1/2 and rounding moves the phase forward by at most half a cycle (grid of the binades); the aborting draws by computation. |
| C80 | repeated changes of the samplerate | Induction over histories with the number of changes, C09 or C12 at each. |
| C81 | polarity and silence, bit for bit | Equivariance of every model function under negation of tables and memory (`Img`: same outcome up to the map), composed through the monad; silence is its own negative. |
| C82 | what is left of a sound after switching to a silent waveform | `Muted` (Spec/Silence.lean): the selected waveform consists of zeros. Its tables are zeros (C81), so a sample only multiplies each memory entry by its e^z (Proofs/Silence.lean). Decay of the iterated rounded complex product until underflow, with and without flushing, and a lower bound that keeps a nonzero subnormal alive when |Re e^z| > 1/2 (Proofs/SilenceFloat.lean, SilenceNum.lean). |
| C83 | small causes, small effects | two signals of C72 with nearby tables and nearby unwrapped phases: interpolation is Lipschitz, the weights add up to at most 1.001, the filter is a convergent integral; the second run is built call by call next to the first (equal control states) |
| C84 | Scratching: playing to and fro without losing the position | Invariant over the run: the crossfader's target octave was asked for within the last crossfade (Recent), and while a higher table is faded in, a lower octave had been asked for before it within the last two (Climb). So the lower table rises or falls only where the hypotheses allow TableMove; then C72's run theorem. |
| C85 | The order in which the filter sections are added up does not matter | Orders of summation are binary trees whose leaves are a permutation of the sections (Spec/SumTree). Induction over the tree bounds the rounding of any order by the number of additions; the run of C84 then gives the rest, because the sum is written to the output only. |
| C86 | the samples never influence what the library does, only what it plays | relational proof (Proofs/Oblivious.lean): every function of the model maps states of the same shape to outcomes of the same shape |
| C87 | Headroom: how far an output can exceed the wavetable's peak | Convolution with the impulse response (C72) and absolute integral at most area times peak; the areas of the built-in filters by panels of width 1/64 with second-derivative error terms and an exponential tail, the nodes evaluated by a fixed-point recurrence whose rounding is proved sound. |
| C88 | What is heard when a sound starts: the turn-on transient | Induction over the atoms of a history with the invariant that the memory is r/z (e^{z n} - 1) c after n samples since the reset; numbers by rational interval evaluation of e^{z} and the geometric closed form. |
| C89 | Latency: by how much the output lags behind the phase | Convolution with the impulse response (C72) split into the straight stretch and what was before it; the line is integrated in closed form (first two moments of the impulse response), the rest decays; the numbers by rational arithmetic. |
| C90 | No clicks while the pitch changes; a click when the waveform changes | Difference of two consecutive convolutions (C72) after shifting the integration variable by one sample; the mixture as a sum over tables with weights (C18 bounds their change along any run that stays in two octaves, by an invariant of the crossfader); the switch by splitting the convolution of a piecewise constant signal into two step responses (C88). |
| C91 | NaN in the filter memory stays until the oscillator is reset | Model/Held: the samples with step 0 continued, the effect of the quotient x/0 being a parameter. Spec/Nan: Poison (closed under the operations). Induction over programs for the persistence; the held sample by the exact position at multiples of 1/4 (as C28); after a held sample the state behaves as one with a positive step unless a lower table is used, which the crossfader excludes in the README case. |
| C92 | oscillators are independent of each other under any schedule | Model: a bank (oscillators, unique_ptr variables, outputs) and tagged statements; proof by a frame lemma (a statement of another thread changes nothing of mine) and a locality lemma (my statement depends only on what is mine), induction on the schedule. |
| C93 | what the built-in filters leave of the audible frequencies | Spec/Passband lists the numbers; the square of the gain is a quotient of two rational polynomials in the square of the frequency (Proofs/Gain); a Moebius substitution maps the interval to the positive axis and the kernel checks the signs of the coefficients. |
| C94 | the README's -90 dB figure is not kept, not even by a steady tone | Spec/Pulse: the pulse, the level of a frequency in P samples (discrete Fourier transform). The discrete spectrum of the pulse is flat; C58 gives the harmonics of its interpolation, a kernel-checked certificate the gain at 9/16 of the samplerate. The transform of the samples of a periodic function is the sum of the components that fold onto the frequency (Proofs/Pulse), the others are bounded by the gain beyond 2.4 times the samplerate and the sum of inverse squares; C52_tone carries it to the output. |
| C95 | the level of the waveforms is the level of the output | Spec/Volume: the program with scaled waveforms, arithmetic that commutes with a factor. Relational proof (Proofs/Volume): every function of the model maps states with scaled tables and filter memories to scaled ones, errors to the same errors; rounding to nearest even commutes with powers of two (rne24_zscale, rne53_zscale). |
| C96 | A program that keeps to the documented preconditions runs, whatever it does with its objects | Statements of `Spec/Bank.lean` extended with the member functions of a wavetable and with moves (`Spec/Program.lean`); the caller's contract is an inductive relation on what the caller knows. Invariant: every oscillator known to hold a wavetable satisfies `OscSafe` and every variable `WtOk`; induction on the program (`Proofs/Program.lean`). |
| C97 | findMipMapIndices is not a query | First call starts a fade with weights (1, 0), the second one is its first step with both weights nonzero (`C16_fade_on_time`); `C97_heard` from `C22_false` and `C96_reuse`. |
| C98 | A repeated sequence of calls repeats its output in the end, bit for bit | The states that can be met in a repeated program form a finite set (phases and steps named by the program, indices and fade counters bounded by the invariant, filter memories made of floats); the map of one pass keeps it, so its orbit is periodic in the end. |
| C99 | Within one octave the oscillator plays in both directions, across phase 0, without faults or jumps | Invariant OneAt of a run: the lower table is that of the octave, the crossfader's target is it and the table faded out is not below it; kept by every sample, so no table drop can happen and C37 applies. |
| C100 | Backwards, a rise of the pitch through an octave is exact at some phases and clicks at the others | The carried-over index is the ceiling, halved k times and rounded down, so it is one too high exactly for these phases (the correction by the sign then moves away from the segment); Sys.bwdVal_high computes what a backward sample yields from an index one too high. |
| C101 | A jump down over several octaves is exact at two samples of the new table in each old one; elsewhere the error is as large as the wavetable is long | The carried-over index is the old floor times 2^k, corrected by at most one, so the sample starts from one of the first two segments after c; Sys.fwdVal_lows computes what a forward sample yields from an index any number of segments too low (induction over that number, fwdVal_pred), filt_eq turns it into the answer of the filter, and ramp1 evaluates it for a table that is constant but for one sample. |
| C102 | resetInternals before a jump makes every following sample right, whatever was played before | resetInternals sets the index from the phase, so afterwards SlowAt holds for the steps with one fictitious step E of the octave of the current table put in front (pushFront, slow_reset); E lies at most an octave above D if a fade was in progress. The slow-run induction of C36 then yields a TrackedRun, and C37_convolution and C60_run apply. |
| C103 | resetInternals before scratching: after a jump every sample is right in both directions, if backward steps stay clear of table changes | SeekAt is the invariant of C84 with the octave of a in the place of that of a tenth: resetInternals establishes it from a settled crossfader (seek_reset) and each sample keeps it (seek_step). The run is a SwitchedRun, so C72_switch and C72_float apply. |
| C104 | The spectrum of the output samples: what is heard at each frequency | The tone's harmonics are absolutely summable; the mean of a rotation tends to 0 unless it stands still; dominated convergence; what C52 leaves decays, so its mean does (Cesàro). |
| C105 | The level of a steady tone | mean power as a limit, `Spec/Power`; mean of the square of an absolutely summable almost periodic sequence (dominated convergence), Minkowski for the harmonics above Nyquist |
| C106 | Debug and release builds play the same | a relation between outcomes (equal unless the first is a failed assertion, and the second is none), closed under sequencing; every function of the model is related to itself without assertions |
| C107 | The type of an oscillator decides what is heard and nothing else | relational induction over the model: the same arithmetic `env`, two arbitrary filter systems; the batch loops always succeed, all the rest is shared |
| C108 | The waveforms of a wavetable do not depend on their company | relation between wavetables whose related waveforms have the same tables; induction over histories; build computes each waveform's tables from its samples alone |
| C109 | How a sound begins: a crossfade that init has started | The crossfader state before sample n in closed form, by induction over the samples; C37 for the outputs. |

Model/Ovs.lean models the oversampled reference oscillator of the benchmarks (C73); JUCE's oversampler is an
arbitrary function, assumed only to hold a block of 8 times the block size.
Model/Drivers.lean also models the programs of `tests/` that drive the library (C61–C67): the tones generator, the
sweep generator, and the phase generator and one pass of the loop of the benchmarks; not their command lines and files,
nor the other oscillators benchmarked. Model/Tests.lean and Model/TestsBuild.lean model the tests of `oscillator_tests.cpp` and
`wavetable_data_tests.cpp` with sizes and random numbers as arguments (C78, C79); the test framework is not modelled.

No property is left partial or out of the model. Restrictions are in the notes of `MANIFEST.json`; the
main one is that C33–C41, C52, C53, C55, C56, C58 (values of the output) are about exact arithmetic;
C59, C60, C70 and C71 bound the distance of the rounded output from it.

### Findings about the code (each is a theorem)
* C03: for waveforms of 1 sample `std::length_error` escapes `build`; for 2 samples a debug build aborts on an assertion and a release build reads out of bounds. Neither returns null.
* C07: the header documents `mDiff[i]` as `M[i] - M[i-1]`; the code stores `M[i+1] - M[i]` (cyclically), and the oscillator relies on that.
* C10: `updateSamplerate` with a samplerate ≤ 0 dereferences null.
* C19: a crossfade shorter than a sample gives NaN; a negative one never ends.
* C22: `resetInternals` does not reset a running crossfade, and itself advances it.
* C27: reaching phase 0 backwards and then moving to a lower table reads `phases[-1]`.
* C64: phases in `[-2^-25, 0)` reduce to 1 and lead to a read out of bounds.
* C62: a tone below 0.0013 Hz stops moving in single precision: debug builds abort, release builds divide by zero (above 0.0003 Hz).
* C67: all benchmarks but the first start with a held phase (abort in debug, NaN in release); the first one, as shipped, aborts
  in its second pass in debug builds (its sweep ends near phase 0.415, and 0 is more than half a cycle ahead).
* C28: the README example that calls `process` with an unchanged phase aborts in debug builds and
  divides by zero in release builds.
* C94: the README's "no artifacts above -90dB" is not kept even by a steady tone: a pulse has an alias at -10 to -42 dB, depending on the filter.
* C91: that NaN then stays in the filter memory: in a release build the README example plays nothing but NaN, also after the phase has started to move, until `init`, `swapWavetable` or `resetInternals`.
* C29: `setWaveform` accepts every index; the next sample reads out of bounds.
* C32: the two modes differ at a step of exactly half a cycle, depending on the wrap.
* C36: the position is lost when the table moves up after a backward step, or two tables down.
* C100: playing backwards, the sample on which a rise through an octave takes effect clicks at half of all phases.
* C101: a note jump down over several octaves can return an output of about -2^L/128 for samples in [-1, 1].
* C102: `resetInternals` makes a jump right, but not if a crossfade is running and the pitch falls by an octave during the first crossfade after it.
* C103: a backward note an octave up, started with `resetInternals`, clicks once at the end of the crossfade.
* C43: after a jump down over more than one octave (C36) one legal sample visits 2^(L-2)-1 segment corners: the work of a single sample grows linearly with the waveform length.
* C46/C47: `isPowerOfTwo` is wrong for some arguments above 2^20, `isOdd` for negative numbers.
* C48: for every positive phase below `FLT_MIN` there is a reached state whose next sample is not the filtered integral, because only one of the two functions involved treats such a phase as zero.
* C54: the Chebyshev filters (`kType2`, `kType5`) drop the direct term of their partial fractions: DC
  gain 0.999, stopband about −54 dB.
* C82: after switching to silence `kType2` and `kType5` keep subnormal numbers in the filter memory forever, unless `resetInternals` is called or the host flushes them: every further sample costs subnormal arithmetic.
* C87: outputs can exceed the peak of the wavetable by up to 0.83, 6.73, 2.35, 3.47 and 5.58 dB (upper bounds), and do so: 0.46, 5.5, 2.1, 1.8 and 4.7 dB are reached by switching between two constant waveforms (C87_needed).
* C88: after `init` or `resetInternals` the first sample of a constant waveform is only 0.93, 0.15, 0.50, 0.13 or 0.13 of it, and the next ones overshoot it by 2.5 to 18 percent: a reset in the middle of a sound is audible.
* C90: `setWaveform` takes effect at once, without a crossfade: between two constant waveforms the output jumps by 93, 15, 50, 13 or 13 percent of their difference in the first sample (kType1 to kType5). Crossfades between mipmap tables on the other hand are click-free as long as the octave moves within one pair.
* C93: `kType5` attenuates by 3 dB already at 0.41 times the samplerate (18.1 kHz at 44.1 kHz), the other filters at 0.45 or above; the source documents no cutoff for it.
* C109: a new wavetable is always set to the octave of 0.1 (the constructor's parameter is never passed and `resetPhaseDiff` is called from nowhere), so every sound below 2756 Hz or from 5513 Hz on (at 44.1 kHz) begins with a crossfade, too dull or with aliases.
* `Oscillator::updateSamplerate` falls back to the default crossfade duration (C11_only_crossfade).

## 4. Testing the theorems
`seeded/LOG.jsonl` records edits of the model, made in scratch copies, that mimic realistic bugs, with
the theorems that stopped proving and those tightened because they did not.

## 5. Trusted base
* Lean 4.33.0's kernel. The axioms of every theorem are among `propext`, `Classical.choice`,
  `Quot.sound`; no others are declared or used, no compiled code is trusted. (`decide +kernel`, used for
  the rational certificates of C54, the fixed-point evaluation of the impulse responses for C87
  (`Verif/Num/FixedPoint`) and similar numerical facts, is evaluated by the kernel.)
* That the definitions in `Verif/Model` say what the C++ says. Each cites the lines it models and
  states its simplifications.
* That the statements in `Verif/Props`, read with `Verif/Spec`, say what `properties.jsonl` says.
