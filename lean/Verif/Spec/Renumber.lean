import Verif.Spec.Reached
import Verif.Spec.Tables
import Verif.Spec.Polarity

/-!
# The same waveforms under other numbers
-/

namespace Adwt
variable {K : Type}

/-- Waveform `i` of the `nw` waveforms `ws` is waveform `i'` of the `nw'` waveforms `ws'`, all of length `2^L`. -/
def SameWaveform (ws : List K) (nw : ℕ) (ws' : List K) (nw' L : ℕ) (i i' : ℤ) : Prop :=
  ∃ w w' : ℕ, i = w ∧ i' = w' ∧ w < nw ∧ w' < nw' ∧ waveformOf ws (2 ^ L) w = waveformOf ws' (2 ^ L) w'

/-- The same call, but for the number of the waveform it selects: the numbers are related by `W`. -/
def Op.Renumbered (W : ℤ → ℤ → Prop) : Op K → Op K → Prop
  | .setWaveform i, .setWaveform i' => W i i'
  | .process dir ps, .process dir' ps' => dir = dir' ∧ ps = ps'
  | .reset p d, .reset p' d' => p = p' ∧ d = d'
  | _, _ => False

/-- The same for statements other than `init` and `swapWavetable`. A samplerate is the same, and if it is positive,
a number that `build` accepts. -/
def Call.Renumbered [Field K] [LinearOrder K] (fl : K → K) (W : ℤ → ℤ → Prop) : Call K → Call K → Prop
  | .setWaveform i, .setWaveform i' => W i i'
  | .process dir ps, .process dir' ps' => dir = dir' ∧ ps = ps'
  | .reset p d, .reset p' d' => p = p' ∧ d = d'
  | .updateSamplerate sr, .updateSamplerate sr' => sr = sr' ∧ (0 < sr → IsRate fl sr)
  | _, _ => False

end Adwt
