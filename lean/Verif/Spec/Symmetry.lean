import Verif.Spec.Convolution

/-!
# Reversed and rotated waveforms
-/

namespace Adwt
variable {C : Type}

/-- The periodic sequence of samples `y'` is that of `y` read backward. -/
def Reversed (y' y : List ℝ) : Prop := y'.length = y.length ∧ ∀ k, cyc y' k = cyc y (-k)

/-- All tables made from waveform `w'` of `ws'` are those made from `w` of `ws` read backward. -/
def ReversedTables (E : Env ℝ) (L : ℕ) (ws' : List ℝ) (w' : ℤ) (ws : List ℝ) (w : ℤ) : Prop :=
  ∀ i, i + 1 < L → Reversed (mipSamples E (waveformOf ws' (2 ^ L) w'.toNat) i)
    (mipSamples E (waveformOf ws (2 ^ L) w.toNat) i)

/-- The crossfaders of two oscillators are in the same state. -/
def SameFader (o' o : Osc ℝ C) : Prop :=
  ∀ wt wt', o.wt = some wt → o'.wt = some wt' → wt.cf = wt'.cf

end Adwt
