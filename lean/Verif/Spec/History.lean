import Verif.Num.Rounding
import Verif.Model.Osc

/-!
# Histories of calls on one oscillator

The user's side of the contract: which calls may follow each other, in terms of the phases given
by the user only.
-/

namespace Adwt
variable {K C : Type} [Field K] [LinearOrder K] [FloorRing K]
variable [Zero C] [Add C] [Sub C] [Mul C] [Div C]

/-- A call on an initialised oscillator. -/
inductive Op (K : Type) where
  /-- `process<dir>(phases, buffer)` with a buffer of the same size -/
  | process (dir : Sys.Direction) (phases : List K)
  /-- `setWaveform(i)` -/
  | setWaveform (i : Int)
  /-- `resetInternals(phase, phase_diff)` -/
  | reset (phase d : K)

/-- Executing one call; the list is what was written to the output buffer. -/
def runOp (S : Sys K C) (o : Osc K C) : Op K → R (Osc K C × List K)
  | .process dir ps => S.process dir o ps (List.replicate ps.length 0)
  | .setWaveform i => do
    let o ← S.setWaveform o i
    return (o, [])
  | .reset p d => do
    let o ← S.resetInternals o p d
    return (o, [])

/-- Executing a history of calls, concatenating all outputs. -/
def runOps (S : Sys K C) (o : Osc K C) : List (Op K) → R (Osc K C × List K)
  | [] => .ok (o, [])
  | op :: ops => do
    let (o1, y1) ← runOp S o op
    let (o2, y2) ← runOps S o1 ops
    return (o2, y1 ++ y2)

/-- A phase the API accepts: a float in `[0, 1)`. If the arithmetic flushes underflow to zero, it must
be 0 or at least `2^-100`. -/
def PhaseOk (fl : K → K) (p : K) : Prop := 0 ≤ p ∧ p < 1 ∧ IsPhase fl p

/-- The phase advances by more than zero and at most half a cycle, possibly through the wrap. -/
def Forward (prev p : K) : Prop :=
  (prev < p ∧ p - prev ≤ 1 / 2) ∨ (p < prev ∧ p - prev + 1 ≤ 1 / 2)

/-- What is required of consecutive phases, by direction. Forward: a forward step.
Bidirectional: the phase changes. -/
def StepOk : Sys.Direction → K → K → Prop
  | .kForward, prev, p => Forward prev p
  | .kBidirectionnal, prev, p => p ≠ prev

/-- As `StepOk`, and phase 0 is not reached by a backward step (it is reached backwards exactly from
a phase in `(0, 1/2]`). -/
def StepSafe : Sys.Direction → K → K → Prop
  | .kForward, prev, p => Forward prev p
  | .kBidirectionnal, prev, p => p ≠ prev ∧ (p = 0 → 1 / 2 < prev)

/-- A block of phases following the phase `prev`. -/
def BlockOk (fl : K → K) (dir : Sys.Direction) : K → List K → Prop
  | _, [] => True
  | prev, p :: ps => PhaseOk fl p ∧ StepOk dir prev p ∧ BlockOk fl dir p ps

/-- A block of phases following the phase `prev` that never reaches phase 0 backwards. -/
def BlockSafe (fl : K → K) (dir : Sys.Direction) : K → List K → Prop
  | _, [] => True
  | prev, p :: ps => PhaseOk fl p ∧ StepSafe dir prev p ∧ BlockSafe fl dir p ps

/-- A history following the phase `prev`, on a wavetable with `nw` waveforms, that never puts the
oscillator at phase 0 with a negative step. -/
def HistorySafe (fl : K → K) (nw : Nat) : K → List (Op K) → Prop
  | _, [] => True
  | prev, .process dir ps :: ops =>
    BlockSafe fl dir prev ps ∧ HistorySafe fl nw (ps.getLastD prev) ops
  | prev, .setWaveform i :: ops => 0 ≤ i ∧ i < nw ∧ HistorySafe fl nw prev ops
  | _, .reset p d :: ops => PhaseOk fl p ∧ d ≠ 0 ∧ (d < 0 → p ≠ 0) ∧ HistorySafe fl nw p ops

/-- A history that only plays forward: forward blocks, resets to a positive step. -/
def ForwardHistory (fl : K → K) (nw : Nat) : K → List (Op K) → Prop
  | _, [] => True
  | prev, .process dir ps :: ops =>
    dir = .kForward ∧ BlockOk fl .kForward prev ps ∧ ForwardHistory fl nw (ps.getLastD prev) ops
  | prev, .setWaveform i :: ops => 0 ≤ i ∧ i < nw ∧ ForwardHistory fl nw prev ops
  | _, .reset p d :: ops => PhaseOk fl p ∧ 0 < d ∧ ForwardHistory fl nw p ops

end Adwt
