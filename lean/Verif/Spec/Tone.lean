import Verif.Spec.Playing
import Verif.Spec.Decay

/-!
# A steady tone
-/

namespace Adwt
open MeasureTheory

/-- What the filter with impulse response `Re Σ 2 r e^{z τ}` gives at the moment when the phase is
`x`, if the periodic waveform `W` has always been read with `d` cycles per sample. -/
noncomputable def tone (flt : Filter ℂ) (W : ℝ → ℝ) (d x : ℝ) : ℝ :=
  (∑ k ∈ Finset.range flt.r.length, 2 * flt.r.getD k 0 *
    ∫ τ in Set.Ioi (0 : ℝ), Complex.exp (flt.z.getD k 0 * τ) * (W (x - τ * d) : ℂ)).re

/-- The Laplace transform of the impulse response `Re Σ 2 r e^{z τ}` at `i ω`: the frequency
response, `ω` in radians per sample. -/
noncomputable def freqResponse (flt : Filter ℂ) (ω : ℝ) : ℂ :=
  ∑ k ∈ Finset.range flt.r.length,
    (flt.r.getD k 0 / (Complex.I * ω - flt.z.getD k 0) +
      (starRingEnd ℂ) (flt.r.getD k 0) / (Complex.I * ω - (starRingEnd ℂ) (flt.z.getD k 0)))

/-- The amplitude of harmonic `k` of a waveform of period 1: its Fourier coefficient. -/
noncomputable def harmonic (W : ℝ → ℝ) (k : ℤ) : ℂ :=
  ∫ x in (0 : ℝ)..1, Complex.exp (-(2 * Real.pi * Complex.I * k * x)) * (W x : ℂ)

/-- A step that the mode can play: forward up to half a cycle; bidirectional less than half a cycle
in either direction. -/
def SteadyStep : Sys.Direction → ℝ → Prop
  | .kForward, d => 0 < d ∧ d ≤ 1 / 2
  | .kBidirectionnal, d => d ≠ 0 ∧ |d| < 1 / 2

/-- A steady tone, sample by sample: the oscillator, in a state reached by legal calls with the
wavetable of the samples `ws` loaded, is called with phases that advance by `d` cycles per sample.
Before sample `n` it is `st n`; sample `n` is `y n`. -/
structure SteadyTone (S : Sys ℝ ℂ) (ws : List ℝ) (nw L : ℕ) (dir : Sys.Direction) (d : ℝ)
    (st : ℕ → Osc ℝ ℂ) (y : ℕ → ℝ) : Prop where
  plays : Plays S ws nw L (st 0)
  step : SteadyStep dir d
  call : ∀ n, S.process dir (st n) [Int.fract ((st 0).prevPhase + (n + 1) * d)] [0] =
    .ok (st (n + 1), [y n])
  off : ∀ n : ℕ, OffDenormal (2 ^ L) (Int.fract ((st 0).prevPhase + n * d))

end Adwt
