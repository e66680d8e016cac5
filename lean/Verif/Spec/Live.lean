import Verif.Spec.Convolution
import Verif.Spec.Decay

/-!
# Runs that start with any filter memory
-/

namespace Adwt
variable {C : Type} [Zero C] [Add C] [Sub C] [Mul C] [Div C]

/-- A run as in `SwitchedRun`, but with any filter memory at its start: what a playing oscillator does
from some moment on. -/
structure LiveRun (S : Sys ℝ C) (ws : List ℝ) (nw L m : ℕ) (st sw : ℕ → Osc ℝ C) (w : ℕ → ℤ)
    (dir : ℕ → Sys.Direction) (p y : ℕ → ℝ) (t : ℕ → MipMapIndices ℝ) : Prop where
  plays : Plays S ws nw L (st 0)
  wave : ∀ i < m, 0 ≤ w i ∧ w i < nw
  set : ∀ i < m, S.setWaveform (st i) (w i) = .ok (sw i)
  phase : ∀ i < m, 0 ≤ p i ∧ p i < 1
  step : ∀ i < m, StepOk (dir i) (sw i).prevPhase (p i)
  call : ∀ i < m, S.process (dir i) (sw i) [p i] [0] = .ok (st (i + 1), [y i])
  next : ∀ i < m, NextIndices S (sw i) (st (i + 1)).prevPhaseDiff (t i)
  move : ∀ i < m, TableMove (sw i) (t i).idx
  off : ∀ i < m, OffDenormal (2 ^ (L - (t i).idx.toNat)) (sw i).prevPhase

theorem SwitchedRun.live {S : Sys ℝ C} {ws : List ℝ} {nw L m : ℕ} {st sw : ℕ → Osc ℝ C} {w : ℕ → ℤ}
    {dir : ℕ → Sys.Direction} {p y : ℕ → ℝ} {t : ℕ → MipMapIndices ℝ}
    (h : SwitchedRun S ws nw L m st sw w dir p y t) : LiveRun S ws nw L m st sw w dir p y t :=
  ⟨h.plays, h.wave, h.set, h.phase, h.step, h.call, h.next, h.move, h.off⟩

/-- How much of the filter memory is left after `n` samples: a sum of decaying powers, one for each
pole of the filter. -/
noncomputable def leftAfter (flt : Filter ℂ) (n : ℕ) : ℝ :=
  ∑ k ∈ Finset.range flt.r.length,
    ((1 + -(flt.z.getD k 0).re / 2) / (1 + -(flt.z.getD k 0).re)) ^ n

end Adwt
