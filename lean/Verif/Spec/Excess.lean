import Verif.Spec.TurnOn

/-!
# Outputs that do exceed the wavetable's peak
-/

namespace Adwt

/-- The value an output can reach, with waveforms of peak 1 (0.46, 5.54, 2.13, 1.80 and 4.70 dB). -/
def excess : FilterType → ℚ
  | .kType1 => 1.055
  | .kType2 => 1.894
  | .kType3 => 1.2785
  | .kType4 => 1.231
  | .kType5 => 1.718

/-- Which of two waveforms, `+1` and `-1`, to choose for sample `i` in order to make sample `n` as large as
possible: that whose sign the filter gives to sample `i` when it makes sample `n`. -/
noncomputable def worstChoice (flt : Filter ℂ) (n i : ℕ) : ℤ :=
  if stepResponse flt (n - i) ≤ stepResponse flt (n + 1 - i) then 0 else 1

end Adwt
