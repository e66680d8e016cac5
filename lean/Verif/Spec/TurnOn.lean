import Verif.Spec.Headroom
import Verif.Spec.History

/-!
# The step response of the filter, and what is heard of a constant waveform
-/

namespace Adwt

/-- The response of the filter to a signal that is 0 before time 0 and 1 after it, at time `T`. -/
noncomputable def stepResponse (flt : Filter ℂ) (T : ℝ) : ℝ := ∫ t in (0 : ℝ)..T, impulse flt t

/-- The outputs of a history if the output depends only on the number of samples since the last reset: the
`n`-th sample after it is `s n`; `k` samples have been heard since the last reset before the history. -/
def sinceReset (s : ℕ → ℝ) : ℕ → List (Op ℝ) → List ℝ
  | _, [] => []
  | k, .process _ ps :: ops =>
    (List.range ps.length).map (fun i => s (k + i + 1)) ++ sinceReset s (k + ps.length) ops
  | k, .setWaveform _ :: ops => sinceReset s k ops
  | _, .reset _ _ :: ops => sinceReset s 0 ops

/-- The step responses of the built-in filters after 1, 2, 3 and 4 samples. -/
def stepTable : FilterType → List ℚ
  | .kType1 => [0.93309, 1.02587, 0.99832, 0.99971]
  | .kType2 => [0.14763, 0.86771, 1.15421, 0.88795]
  | .kType3 => [0.50273, 1.10811, 0.97370, 1.00318]
  | .kType4 => [0.12614, 0.97983, 1.04562, 0.96619]
  | .kType5 => [0.12905, 0.77865, 1.18127, 0.91678]

end Adwt
