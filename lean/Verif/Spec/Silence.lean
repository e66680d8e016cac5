import Verif.Spec.Playing

/-!
# Silent waveforms
-/

namespace Adwt

/-- The waveform selected consists of zeros. -/
def Muted {C : Type} (ws : List ℝ) (L : ℕ) (o : Osc ℝ C) : Prop :=
  ∀ x ∈ waveformOf ws (2 ^ L) o.crt.toNat, x = 0

end Adwt
