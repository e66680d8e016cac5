import Verif.Spec.History

/-!
# Programs over the whole API, and waveforms of opposite polarity
-/

namespace Adwt
variable {K C : Type} [Field K] [LinearOrder K] [FloorRing K]
variable [Zero C] [Add C] [Sub C] [Mul C] [Div C]

/-- One statement of a program that uses one oscillator. -/
inductive Call (K : Type) where
  /-- `init(WavetableData::build(waveforms, num_waveforms, samplerate, duration), phase, phase_diff)` -/
  | init (waveforms : List K) (numWf : Int) (sr dur phase d : K)
  /-- `swapWavetable(WavetableData::build(...), phase, phase_diff)`; the old wavetable is dropped -/
  | swap (waveforms : List K) (numWf : Int) (sr dur phase d : K)
  /-- `process<dir>(phases, buffer)` with a buffer of the same size -/
  | process (dir : Sys.Direction) (phases : List K)
  | setWaveform (i : Int)
  | reset (phase d : K)
  | updateSamplerate (sr : K)

/-- Executing one statement; the list is what was written to the output buffer. -/
def runCall (S : Sys K C) (o : Osc K C) : Call K → R (Osc K C × List K)
  | .init ws n sr dur p d => do
    let w ← WavetableData.build S.env ws n sr dur
    let (o, _) ← S.init o w p d
    return (o, [])
  | .swap ws n sr dur p d => do
    let w ← WavetableData.build S.env ws n sr dur
    let (o, _) ← S.swapWavetable o w p d
    return (o, [])
  | .process dir ps => S.process dir o ps (List.replicate ps.length 0)
  | .setWaveform i => do
    let o ← S.setWaveform o i
    return (o, [])
  | .reset p d => do
    let o ← S.resetInternals o p d
    return (o, [])
  | .updateSamplerate sr => do
    let o ← S.updateSamplerate o sr
    return (o, [])

/-- Executing a program, concatenating all outputs. -/
def runCalls (S : Sys K C) (o : Osc K C) : List (Call K) → R (Osc K C × List K)
  | [] => .ok (o, [])
  | c :: cs => do
    let (o1, y1) ← runCall S o c
    let (o2, y2) ← runCalls S o1 cs
    return (o2, y1 ++ y2)

/-- The same statement with every waveform sample negated. -/
def Call.invert : Call K → Call K
  | .init ws n sr dur p d => .init (ws.map (- ·)) n sr dur p d
  | .swap ws n sr dur p d => .swap (ws.map (- ·)) n sr dur p d
  | c => c

/-- The statement builds wavetables from zeros only. -/
def Call.Silent : Call K → Prop
  | .init ws .. => ∀ x ∈ ws, x = 0
  | .swap ws .. => ∀ x ∈ ws, x = 0
  | _ => True

/-- Rounding does not depend on the sign, contraction of expressions neither, and the resampler maps a
negated input to the negated output. -/
structure OddEnv (E : Env K) : Prop where
  fl : ∀ x, E.fl (-x) = -E.fl x
  dbl : ∀ x, E.dbl (-x) = -E.dbl x
  mad : ∀ a b c, E.mad (-a) b (-c) = -E.mad a b c
  dmm : ∀ a b c d, E.dmm (-a) b c (-d) = -E.dmm a b c d
  src : ∀ l n r, E.src (l.map (- ·)) n r =
    ⟨(E.src l n r).err, fun i => -(E.src l n r).data i, (E.src l n r).inputUsed,
      (E.src l n r).outputGen⟩

/-- The complex operations neither depend on the sign. -/
structure OddOps [Neg C] (A : COps K C) : Prop where
  zero : -(0 : C) = 0
  add : ∀ a b : C, -a + -b = -(a + b)
  sub : ∀ a b : C, -a - -b = -(a - b)
  mul_left : ∀ a b : C, -a * b = -(a * b)
  mul_right : ∀ a b : C, a * -b = -(a * b)
  div : ∀ a b : C, -a / b = -(a / b)
  ofK : ∀ x, A.ofK (-x) = -A.ofK x
  re : ∀ a, A.re (-a) = -A.re a
  fma : ∀ a b c, A.fma a (-b) (-c) = -A.fma a b c
  fms : ∀ a b c, A.fms a (-b) (-c) = -A.fms a b c
  fnma : ∀ a b c, A.fnma a (-b) (-c) = -A.fnma a b c

end Adwt
