import Verif.Model.Osc

/-!
# Held phases in a release build, with the division by zero carried out

In `Verif.Model.Osc` a division by a step of zero is the outcome `divByZero`. Here the sample is
continued as IEEE arithmetic does: the quotient is NaN or infinite, and no branch of the code depends
on it. `divz x k old` stands for the new value of accumulator `k` after a corner whose `part_a` is
`x / 0` and whose old value is `old`, i.e. for `adwt/adwt.cpp:183-244` with that quotient; it is a
parameter, so that nothing is assumed here about exponentials of infinities. The other statements are
those of the model without this extension, at `phase_diff = 0`. That the compiler keeps IEEE semantics
here is an assumption: `adwt/CMakeLists.txt:31-35` sets `-ffast-math`.
-/

namespace Adwt
variable {K C : Type} [Field K] [LinearOrder K] [FloorRing K]
variable [Zero C] [Add C] [Sub C] [Mul C] [Div C]

namespace Sys

/-- One iteration of the corner loop of `computeISumFwd` at step 0, `adwt/adwt.cpp:183-245`. -/
def iSumFwdStepZ (S : Sys K C) (divz : K → Nat → C → C) (mds qds phs : List K)
    (len jmaxPRed : Int) (phaseRed : K) (a : Nat → C) (i : Int) : R (Nat → C) := do
  let fl := S.env.fl
  let iRed ← Maths.reduceI S.env.dbg i len
  let bar := fl (phaseRed + ofBool (decide (iRed > jmaxPRed)))
  let ph ← rd phs (iRed + 1)
  let _ ← rd mds iRed
  let _ ← rd qds iRed
  overCoeffs S.n S.B (divz (fl (bar - ph))) (divz (fl (bar - ph))) a

/-- `computeISumFwd` at step 0, `adwt/adwt.cpp:161-246`. -/
def computeISumFwdZ (S : Sys K C) (divz : K → Nat → C → C) (wt : WavetableData K)
    (crt mip jminRed jmaxPRed : Int) (phaseRed : K) (a : Nat → C) : R (Nat → C) := do
  let len ← wt.waveformLen mip
  let mds ← wt.mDiffSpan crt mip
  let qds ← wt.qDiffSpan crt mip
  let phs ← wt.phaseSpan mip
  (irange jminRed (bornSup jminRed jmaxPRed len)).foldlM
    (S.iSumFwdStepZ divz mds qds phs len jmaxPRed phaseRed) a

/-- `computeFwdI` at step 0, `adwt/adwt.cpp:355-369`. -/
def computeFwdIZ (S : Sys K C) (divz : K → Nat → C → C) (wt : WavetableData K) (crt : Int)
    (prevPhaseRed : K) (mip jminRed jmaxPRed : Int) (phaseRed : K) (a : Nat → C) : R (Nat → C) := do
  let bar := S.env.fl (prevPhaseRed + ofBool (decide (prevPhaseRed = 0)))
  let a ← S.computeI0 wt crt mip jminRed jmaxPRed 0 bar phaseRed a
  S.computeISumFwdZ divz wt crt mip jminRed jmaxPRed phaseRed a

/-- `processSampleFwd` at step 0, `adwt/adwt.cpp:409-501`. -/
def heldSample (S : Sys K C) (divz : K → Nat → C → C) (o : Osc K C) (phase : K) :
    R (Osc K C × K) := do
  let E := S.env
  chk E.dbg ((0 : K) > 0 ∧ (0 : K) ≤ 1 / 2)
  match o.wt with
  | none => .error .nullDeref
  | some wt0 => do
    let (wt, t) ← wt0.findMipMapIndices E 0
    let phs ← wt.phaseSpan t.idx
    let phaseRed ← Maths.reduceF E phase 1
    let len ← wt.waveformLen t.idx
    let j0 ← adjustJ phs t.idx o.prevMip o.jRed o.prevPhaseDiff o.prevPhaseRed
    let prevJ ← prevJFwd E.fl phs j0 o.prevPhaseDiff o.prevPhaseRed
    let j ← Maths.floor E.fl (E.fl (phaseRed * E.fl (len : K)))
    let jminRed ← Maths.reduceI E.dbg (prevJ - 1) len
    let jmaxPRed ← Maths.reduceI E.dbg j len
    let a ← S.computeFwdIZ divz wt o.crt o.prevPhaseRed t.idx jminRed jmaxPRed phaseRed
      (fun _ => 0)
    let a ← S.withUpper t a (S.computeFwdIZ divz wt o.crt o.prevPhaseRed t.idxUp
      (jminRed.tdiv 2) (jmaxPRed.tdiv 2) phaseRed (fun _ => 0))
    let y := S.cpxY o.prevY a
    return ({ wt := some wt, prevY := y, prevPhase := phase, prevPhaseRed := phaseRed,
              prevPhaseDiff := 0, prevMip := t.idx, jRed := j, prevJRed := prevJ,
              crt := o.crt }, S.outReal y)

/-- One iteration of the selected loop, `adwt/adwt.cpp:376-384, 392-406`: with a step of zero (which
both loops pass to `processSampleFwd`) the division is carried out. -/
def stepZ (S : Sys K C) (divz : K → Nat → C → C) : Direction → Osc K C → K → R (Osc K C × K)
  | .kForward, o, phase =>
    let d0 := S.env.fl (phase - o.prevPhase)
    if (if d0 < 0 then S.env.fl (d0 + 1) else d0) = 0 then S.heldSample divz o phase
    else S.stepFwd o phase
  | .kBidirectionnal, o, phase =>
    if biDiff S.env.fl phase o.prevPhase = 0 then S.heldSample divz o phase
    else S.stepBi o phase

/-- The loops over the phases, `adwt/adwt.cpp:376-384, 392-406`. -/
def runZ (S : Sys K C) (divz : K → Nat → C → C) (dir : Direction) (o : Osc K C) :
    List K → R (Osc K C × List K)
  | [] => .ok (o, [])
  | p :: ps => do
    let (o1, y) ← S.stepZ divz dir o p
    let (o2, ys) ← S.runZ divz dir o1 ps
    return (o2, y :: ys)

/-- `process<Dir>(phases, output)`, `adwt/adwt.hpp:149-156`, `adwt/adwt.cpp:371-407`. -/
def processZ (S : Sys K C) (divz : K → Nat → C → C) (dir : Direction) (o : Osc K C)
    (phases output : List K) : R (Osc K C × List K) := do
  if o.wt.isNone then chk S.env.dbg False
  chk S.env.dbg (phases.length = output.length)
  let (o', ys) ← S.runZ divz dir o (phases.take output.length)
  return (o', ys ++ output.drop ys.length)

end Sys
end Adwt
