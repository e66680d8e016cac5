import Verif.Spec.Dft
import Verif.Spec.Octave
import Verif.Model.Filter

/-!
# A steady tone with audible aliases
-/

namespace Adwt

/-- One pulse in a wavetable of `2^L` samples. -/
def pulse (L : ℕ) : List ℝ := 1 :: List.replicate (2 ^ L - 1) 0

/-- The level of the component heard at 7/16 of the samplerate, in parts of the fundamental. -/
def aliasLevel : FilterType → ℚ
  | .kType1 => 0.331
  | .kType2 => 0.0187
  | .kType3 => 0.2328
  | .kType4 => 0.1557
  | .kType5 => 0.0082

/-- The level of the frequency `f` (in cycles per sample) in `P` samples: the modulus of the normalised
discrete Fourier transform. -/
noncomputable def levelIn (P : ℕ) (y : ℕ → ℝ) (f : ℝ) : ℝ :=
  ‖(∑ n ∈ Finset.range P, (y n : ℂ) * Complex.exp (-(2 * Real.pi * Complex.I * f * n))) / P‖

/-- The level at 7/16 of the samplerate, in parts of that of the fundamental, measured in the output
samples. -/
def measuredLevel : FilterType → ℚ
  | .kType1 => 0.325
  | .kType2 => 0.0185
  | .kType3 => 0.2325
  | .kType4 => 0.1555
  | .kType5 => 0.008

end Adwt
