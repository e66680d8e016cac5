import Verif.Spec.Tone
import Verif.Model.Filter

/-!
# What the built-in filters leave of the audible frequencies
-/

namespace Adwt

/-- The smallest gain up to 0.3 and up to 0.4 times the samplerate (13.2 and 17.6 kHz at 44.1 kHz). -/
def passGain : FilterType → ℚ × ℚ
  | .kType1 => (0.9137, 0.7846)
  | .kType2 => (0.9989, 0.9945)
  | .kType3 => (0.9809, 0.8482)
  | .kType4 => (0.9961, 0.8967)
  | .kType5 => (0.9989, 0.7956)

/-- The frequency, in parts of the samplerate and to the third decimal, where half of the power is left. -/
def halfPower : FilterType → ℚ
  | .kType1 => 0.450
  | .kType2 => 0.468
  | .kType3 => 0.450
  | .kType4 => 0.450
  | .kType5 => 0.410

end Adwt
