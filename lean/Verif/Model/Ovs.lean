import Verif.Model.Drivers

/-!
# The oversampled reference oscillator of the benchmarks

`tests/benchmarks/source/ovs_oscillator.{hpp,cpp}`, `downsampler_base.hpp`, `downsampler_juce.{hpp,cpp}`:
the oscillator the library is compared with. `juce::dsp::Oversampling` is external: `down` stands for
`processSamplesDown` (a function of its state, the contents of the upsampled block and the number of
output samples), `D` for its state. The one thing assumed about it is that the upsampled block of an
`Oversampling` constructed with factor 3 holds 8 times the block size.
-/

namespace Adwt.Ovs
variable {K D : Type} [Field K] [LinearOrder K] [FloorRing K]

/-- `maths::reduce<std::size_t>`, `adwt/maths.hpp:65-77`: all arithmetic modulo `2^64`, so that
`-threshold` is `2^64 - threshold`. The branch `value < T()` is never taken. -/
def reduceU (dbg : Bool) (v t : Nat) : R Nat := do
  chk dbg (0 < t)
  chk dbg (v ≤ 2 * t % 2 ^ 64 ∧ v ≥ (2 ^ 64 - t) % 2 ^ 64)
  return if v ≥ t then v - t else v

/-- One turn of the interpolation loop, `ovs_oscillator.cpp:62-70`. `prev_idx` is an `int` converted to
`std::size_t`, i.e. taken modulo `2^64`. `wp - prev * a` is written as the multiply-add
`(-prev) * a + wp`, which is the same for a rounding that commutes with negation. -/
def sample (E : Env K) (ws : List K) (phase : K) : R K := do
  let rel := E.fl (phase * E.fl (ws.length : K))
  let i ← Maths.floor E.fl rel
  let prev := i % 2 ^ 64
  let next ← reduceU E.dbg ((prev.toNat + 1) % 2 ^ 64) ws.length
  let wn ← rd ws next
  let wp ← rd ws prev
  let a := E.fl (wn - wp)
  let b := E.mad (-(E.fl (prev : K))) a wp
  return E.mad a rel b

/-- The members of `OvsOscillator`, `ovs_oscillator.hpp:42-46`, with `ratio_` and the size of the upsampled
block of the downsampler. -/
structure OvsOsc (K D : Type) where
  upsampled : List K
  waveform : List K
  ratio : Int
  dRatio : Int
  dBlock : Nat
  down : D

/-- `OvsOscillator::init`, `ovs_oscillator.cpp:33-49`, with `DownsamplerBase::init`,
`downsampler_base.hpp:41-45`, and `DownsamplerJUCE::initDerived`, `downsampler_juce.cpp:29-39`.
`std::vector::resize` keeps the old contents; `initD` is what JUCE does. -/
def init (initD : D → Nat → D) (o : OvsOsc K D) (ws : List K) (blockSize : Int) (ratio : Int) :
    OvsOsc K D × Int :=
  if ratio ≤ 0 ∨ blockSize ≤ 0 then (o, 1)
  else
    let n := blockSize.toNat * ratio.toNat
    ({ upsampled := o.upsampled.take n ++ List.replicate (n - o.upsampled.length) 0
       waveform := ws
       ratio := ratio
       dRatio := ratio
       dBlock := 8 * blockSize.toNat
       down := initD o.down blockSize.toNat }, 0)

/-- The loop over `iter::zip(phases, upsampled_data_)`, `ovs_oscillator.cpp:61-70`: as long as both
last. -/
def fill (E : Env K) (ws : List K) : List K → List K → R (List K)
  | p :: ps, _ :: us => do
    let y ← sample E ws p
    let ys ← fill E ws ps us
    return y :: ys
  | _, us => .ok us

/-- `OvsOscillator::process`, `ovs_oscillator.cpp:51-73`, with `DownsamplerBase::process`,
`downsampler_base.hpp:47-50`, and `DownsamplerJUCE::processDerived`, `downsampler_juce.cpp:41-48`: the
`memcpy` into the upsampled block must fit. `outLen` is the size of `output`. -/
def process (E : Env K) (down : D → List K → Nat → D × List K) (o : OvsOsc K D) (phases : List K)
    (outLen : Nat) : R (OvsOsc K D × List K) := do
  chk E.dbg (phases.length = outLen * o.ratio.toNat)
  chk E.dbg (phases.length = o.upsampled.length)
  let up ← fill E o.waveform phases o.upsampled
  chk E.dbg (up.length = outLen * o.dRatio.toNat ∧ up ≠ [])
  if o.dBlock < up.length then .error .outOfBounds
  else
    let (d, out) := down o.down up outLen
    return ({ o with upsampled := up, down := d }, out)

/-- The measured loop of the JUCE benchmark, one pass, `tests/benchmarks/juce_benchmark.cpp:63-73`: the
`k`-th of `num_blocks` blocks reads `ratio * blockSize` phases and produces `blockSize` samples. The
outputs are returned in order. -/
def juceLoop (E : Env K) (down : D → List K → Nat → D × List K) (o : OvsOsc K D) (phases : List K)
    (blockSize ratio : Nat) : Nat → R (OvsOsc K D × List (List K))
  | 0 => .ok (o, [])
  | k + 1 => do
    let (o, ys) ← juceLoop E down o phases blockSize ratio k
    let block := (phases.drop (k * (ratio * blockSize))).take (ratio * blockSize)
    let (o, out) ← process E down o block blockSize
    return (o, ys ++ [out])

/-- `bmSweep`, `tests/benchmarks/juce_benchmark.cpp:36-74`, one pass of the measured loop; `o` is the
freshly constructed oscillator, `none` is the `std::abort` after a failed `init`. -/
def juceBench (E : Env K) (initD : D → Nat → D) (down : D → List K → Nat → D × List K) (o : OvsOsc K D)
    (ws : List K) (sr : K) (numFrames blockSize : Nat) : R (Option (OvsOsc K D × List (List K))) := do
  let (o, res) := init initD o ws blockSize 8
  if res ≠ 0 then return none
  let phases ← Drivers.generateLinearSweepPhase E.fl (E.fl 20) (E.fl (sr / 2)) (E.fl (sr * 8)) (numFrames * 8)
  let r ← juceLoop E down o phases blockSize 8 (numFrames / blockSize)
  return some r

end Adwt.Ovs
