import Verif.Spec.Polarity

/-!
# Programs that differ only in the samples of their waveforms
-/

namespace Adwt
variable {K : Type} [Field K] [LinearOrder K] [FloorRing K]

/-- The two statements are the same but for the values of the waveform samples. -/
def Call.Alike : Call K → Call K → Prop
  | .init ws n sr dur p d, .init ws' n' sr' dur' p' d' =>
    ws.length = ws'.length ∧ n = n' ∧ sr = sr' ∧ dur = dur' ∧ p = p' ∧ d = d'
  | .swap ws n sr dur p d, .swap ws' n' sr' dur' p' d' =>
    ws.length = ws'.length ∧ n = n' ∧ sr = sr' ∧ dur = dur' ∧ p = p' ∧ d = d'
  | .process dir ps, .process dir' ps' => dir = dir' ∧ ps = ps'
  | .setWaveform i, .setWaveform i' => i = i'
  | .reset p d, .reset p' d' => p = p' ∧ d = d'
  | .updateSamplerate sr, .updateSamplerate sr' => sr = sr'
  | _, _ => False

/-- Whether the resampler fails, and how much it consumes and produces, does not depend on the values of
the samples. -/
def ObliviousSrc (E : Env K) : Prop :=
  ∀ l l' : List K, l.length = l'.length → ∀ n r, (E.src l n r).err = (E.src l' n r).err ∧
    (E.src l n r).inputUsed = (E.src l' n r).inputUsed ∧ (E.src l n r).outputGen = (E.src l' n r).outputGen

end Adwt
