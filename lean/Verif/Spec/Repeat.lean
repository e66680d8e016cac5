import Verif.Spec.History

/-!
# Sequences of calls that are repeated
-/

namespace Adwt
variable {K : Type} [Field K] [LinearOrder K]

/-- The last phase given to the oscillator, if it was at `prev` before the calls `ops`. -/
def endPhase : K → List (Op K) → K
  | prev, [] => prev
  | prev, .process _ ps :: ops => endPhase (ps.getLastD prev) ops
  | prev, .setWaveform _ :: ops => endPhase prev ops
  | _, .reset p _ :: ops => endPhase p ops

/-- A sequence repeats itself in the end: from the index `N` on it has period `Q`. -/
def EventuallyPeriodic {α : Type} (f : ℕ → α) : Prop := ∃ N Q, 0 < Q ∧ ∀ n, N ≤ n → f (n + Q) = f n

end Adwt
