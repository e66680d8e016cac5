import Verif.Spec.History

/-!
# Legal histories
-/

namespace Adwt
variable {K : Type} [Field K] [LinearOrder K] [FloorRing K]

/-- A history of legal calls following the phase `prev`, on a wavetable with `nw` waveforms. -/
def HistoryOk (fl : K → K) (nw : Nat) : K → List (Op K) → Prop
  | _, [] => True
  | prev, .process dir ps :: ops =>
    BlockOk fl dir prev ps ∧ HistoryOk fl nw (ps.getLastD prev) ops
  | prev, .setWaveform i :: ops => 0 ≤ i ∧ i < nw ∧ HistoryOk fl nw prev ops
  | _, .reset p d :: ops => PhaseOk fl p ∧ d ≠ 0 ∧ HistoryOk fl nw p ops

end Adwt
