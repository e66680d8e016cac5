import Verif.Spec.History

/-!
# Histories a release build accepts in forward mode

As `Spec/History.lean`, but the phases of forward blocks only have to change: they may move
backwards, or forwards by more than half a cycle.
-/

namespace Adwt
variable {K : Type} [Field K] [LinearOrder K] [IsStrictOrderedRing K]

/-- A block of phases after `prev` in which the phase changes with every sample. -/
def BlockAny (fl : K → K) : K → List K → Prop
  | _, [] => True
  | prev, p :: ps => PhaseOk fl p ∧ p ≠ prev ∧ BlockAny fl p ps

/-- A history in which the phases of forward blocks only have to change. Everything else as in
`HistorySafe`. -/
def HistoryAny (fl : K → K) (nw : Nat) : K → List (Op K) → Prop
  | _, [] => True
  | prev, .process .kForward ps :: ops =>
    BlockAny fl prev ps ∧ HistoryAny fl nw (ps.getLastD prev) ops
  | prev, .process .kBidirectionnal ps :: ops =>
    BlockSafe fl .kBidirectionnal prev ps ∧ HistoryAny fl nw (ps.getLastD prev) ops
  | prev, .setWaveform i :: ops => 0 ≤ i ∧ i < nw ∧ HistoryAny fl nw prev ops
  | _, .reset p d :: ops => PhaseOk fl p ∧ d ≠ 0 ∧ (d < 0 → p ≠ 0) ∧ HistoryAny fl nw p ops

end Adwt
