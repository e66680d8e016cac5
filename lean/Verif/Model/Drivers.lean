import Verif.Model.Osc

/-!
# The programs shipped with the library that drive it

`tests/tones_generator.cpp`, `tests/sweep_generator.cpp` and the phase generator of
`tests/benchmarks/utils_benchmarks.cpp`: how the authors themselves produce phases for `process`.
Not modelled: command line parsing, writing of the files.
-/

namespace Adwt.Drivers
variable {K C : Type} [Field K] [LinearOrder K] [FloorRing K]
variable [Zero C] [Add C] [Sub C] [Mul C] [Div C]

/-- `std::fmod(x, 1.F)`: the remainder with the sign of `x`. `fmod` is exact in IEEE arithmetic, so
there is no rounding. -/
def fmod1 (x : K) : K := x - (trunc x : K)

/-- The loop computing phases from steps, `tests/tones_generator.cpp:25-28`,
`tests/sweep_generator.cpp:25-29` and `40-44`, `tests/benchmarks/utils_benchmarks.cpp:34-38`:
`phase = std::fmod(phase + step, 1.F)`, starting from the phase `x`. -/
def accumulate (fl : K → K) : K → List K → List K
  | _, [] => []
  | x, s :: ss => fmod1 (fl (x + s)) :: accumulate fl (fmod1 (fl (x + s))) ss

/-- A float that is increased by `step` at each turn of a loop (`crt_log_freq`, `freq`, `log_freq`),
`tests/tones_generator.cpp:40-44`, `tests/sweep_generator.cpp:22, 28, 38, 43`,
`tests/benchmarks/utils_benchmarks.cpp:31, 37`: its first `n` values. -/
def ramp (fl : K → K) (step : K) : K → Nat → List K
  | _, 0 => []
  | x, n + 1 => x :: ramp fl step (fl (x + step)) n

/-- `kSamplerate`, `tests/tones_generator.cpp:17`, `tests/sweep_generator.cpp:15`. -/
def kSamplerate : K := 44100

/-- `generateTonePhase`, `tests/tones_generator.cpp:20-31`. -/
def generateTonePhase (fl : K → K) (freq : K) (n : Nat) : List K :=
  accumulate fl 0 (List.replicate n (fl (freq / kSamplerate)))

/-- `generateLogFreqRange`, `tests/tones_generator.cpp:33-47`. `pow2` is `std::pow(2.F, _)`. For
`fnum = 0` the step is computed but not used (it is NaN in C++). -/
def generateLogFreqRange (E : Env K) (pow2 : K → K) (fmin fmax : K) (fnum : Nat) : List K :=
  (ramp E.fl (E.fl (E.fl (E.log2f fmax - E.log2f fmin) / E.fl (fnum : K))) (E.log2f fmin) fnum).map
    pow2

/-- `generateTone`, `tests/tones_generator.cpp:87-120`, without the writing of the file; `process`
is called with its default direction (`adwt/adwt.hpp:149`). The list is what is written. -/
def generateTone (S : Sys K C) (o : Osc K C) (freq : K) (n : Nat) : R (Osc K C × List K) := do
  let phases := generateTonePhase S.env.fl freq n
  let o ← S.resetInternals o 0 (S.env.fl (freq / kSamplerate))
  let (o, out) ← S.process .kBidirectionnal o phases (List.replicate n 0)
  return (o, out.map fun y => S.env.fl (y * (1 / 2)))

/-- The loop of `main` over the frequencies and the multipliers `{-1.F, 1.F}`,
`tests/tones_generator.cpp:183-200`: all files written, in order. -/
def tonesLoop (S : Sys K C) (n : Nat) : Osc K C → List K → R (Osc K C × List (List K))
  | o, [] => .ok (o, [])
  | o, freq :: freqs => do
    let (o, a) ← generateTone S o (S.env.fl (freq * -1)) n
    let (o, b) ← generateTone S o (S.env.fl (freq * 1)) n
    let (o, rest) ← tonesLoop S n o freqs
    return (o, a :: b :: rest)

/-- `main` of the tones generator from the built wavetable on, `tests/tones_generator.cpp:169-202`:
`init` with the default initial state, `adwt/adwt.hpp:100`. The first component is the return
value. -/
def tonesMain (S : Sys K C) (wt : Option (WavetableData K)) (freqs : List K) (n : Nat) :
    R (Int × List (List K)) := do
  let (o, res) ← S.init S.fresh wt 0 (S.env.fl (2 / 5))
  if res ≠ 0 then return (3, [])
  let (_, files) ← tonesLoop S n o freqs
  return (0, files)

/-- `generateLinearSweepPhase`, `tests/sweep_generator.cpp:19-30` and, textually identical,
`tests/benchmarks/utils_benchmarks.cpp:28-40`; `n` is the size of `dst`. -/
def generateLinearSweepPhase (fl : K → K) (start stop sr : K) : Nat → R (List K)
  | 0 => .error .outOfBounds
  | n + 1 =>
    let fStep := fl (fl (stop - start) / fl ((n + 1 : Nat) : K))
    .ok (0 :: accumulate fl 0 ((ramp fl fStep start n).map fun freq => fl (freq / sr)))

/-- `generateExpSweepPhase`, `tests/sweep_generator.cpp:32-45`. -/
def generateExpSweepPhase (E : Env K) (pow2 : K → K) (start stop sr : K) : Nat → R (List K)
  | 0 => .error .outOfBounds
  | n + 1 =>
    let logStep := E.fl (E.fl (E.log2f stop - E.log2f start) / E.fl ((n + 1 : Nat) : K))
    .ok (0 :: accumulate E.fl 0
      ((ramp E.fl logStep (E.log2f start) n).map fun lf => E.fl (pow2 lf / sr)))

/-- `main` of the sweep generator from the built wavetable on, `tests/sweep_generator.cpp:123-152`:
`init` with phase 0.99 and step 0.01, then `process` of the whole sweep. -/
def sweepMain (S : Sys K C) (pow2 : K → K) (wt : Option (WavetableData K)) (fmin fmax : K) (n : Nat) :
    R (Int × List K) := do
  let phases ← generateExpSweepPhase S.env pow2 fmin fmax kSamplerate n
  let (o, res) ← S.init S.fresh wt (S.env.fl (99 / 100)) (S.env.fl (1 / 100))
  if res ≠ 0 then return (3, [])
  let (_, out) ← S.process .kBidirectionnal o phases (List.replicate n 0)
  return (0, out.map fun y => S.env.fl (y * (1 / 2)))

/-- The sweep benchmarks, `tests/benchmarks/adwt_benchmark.cpp:31-68` (and the variants for the other
filters, `70-...`), one pass of the measured loop: blocks of `blockSize` phases of a linear sweep
from 20 Hz to half the samplerate, in forward mode. `p0`, `d0` are the initial state given to `init`
(explicit for the first benchmark, the default for the others). The output of all blocks is
returned in order; a buffer per block or one large buffer make no difference to the oscillator. -/
def benchLoop (S : Sys K C) (o : Osc K C) (phases : List K) (blockSize : Nat) :
    Nat → R (Osc K C × List K)
  | 0 => .ok (o, [])
  | k + 1 => do
    let (o, ys) ← benchLoop S o phases blockSize k
    let block := (phases.drop (k * blockSize)).take blockSize
    let (o, out) ← S.process .kForward o block (List.replicate blockSize 0)
    return (o, ys ++ out)

/-- One benchmark, `tests/benchmarks/adwt_benchmark.cpp:31-68`, from the built wavetable on. -/
def bench (S : Sys K C) (wt : Option (WavetableData K)) (p0 d0 sr : K) (numFrames blockSize : Nat) :
    R (Osc K C × List K) := do
  let (o, _) ← S.init S.fresh wt p0 d0
  let phases ← generateLinearSweepPhase S.env.fl (S.env.fl 20) (S.env.fl (sr / 2)) sr numFrames
  benchLoop S o phases blockSize (numFrames / blockSize)

/-- The measured loop `for (auto _ : state)`, `tests/benchmarks/adwt_benchmark.cpp:57-66`: the same phases
again and again, the oscillator is not reset. The outputs of all passes in order. -/
def benchPasses (S : Sys K C) (o : Osc K C) (phases : List K) (blockSize blocks : Nat) :
    Nat → R (Osc K C × List K)
  | 0 => .ok (o, [])
  | k + 1 => do
    let (o, ys) ← benchPasses S o phases blockSize blocks k
    let (o, zs) ← benchLoop S o phases blockSize blocks
    return (o, ys ++ zs)

/-- One benchmark with any number of passes. -/
def benchRun (S : Sys K C) (wt : Option (WavetableData K)) (p0 d0 sr : K) (numFrames blockSize passes : Nat) :
    R (Osc K C × List K) := do
  let (o, _) ← S.init S.fresh wt p0 d0
  let phases ← generateLinearSweepPhase S.env.fl (S.env.fl 20) (S.env.fl (sr / 2)) sr numFrames
  benchPasses S o phases blockSize (numFrames / blockSize) passes

end Adwt.Drivers
