import Verif.Spec.TurnOn
import Verif.Spec.Bounded

/-!
# Waveforms that are nearly constant
-/

namespace Adwt

/-- Every sample of every mipmap table of waveform `w` is within `δ` of the level `c w`. -/
def NearLevels (E : Env ℝ) (ws : List ℝ) (nw L : ℕ) (c : ℕ → ℝ) (δ : ℝ) : Prop :=
  ∀ w < nw, ∀ i, i + 1 < L → ∀ x ∈ mipSamples E (waveformOf ws (2 ^ L) w) i, |x - c w| ≤ δ

/-- The response of the filter after `n + 1` samples to a signal that has the constant value `c i` during
sample `i`. -/
noncomputable def levelResponse (flt : Filter ℂ) (c : ℕ → ℝ) (n : ℕ) : ℝ :=
  ∑ i ∈ Finset.range (n + 1), c i * (stepResponse flt (n + 1 - i) - stepResponse flt (n - i))

end Adwt
