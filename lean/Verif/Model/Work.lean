import Verif.Model.Osc

/-!
# Counting the corners

The functions of `Verif.Model.Osc`, instrumented: besides its result, each one returns how often
the body of the corner loops (`adwt/adwt.cpp:183-245` and `272-333`) was executed. These loops are
the only ones in `process` whose length depends on the data: all other loops run over the filter
coefficients (`kNumCoeffs`) or over at most `numMipMapTables` entries of the mipmap scale.
`Verif.Proofs.Work` proves that forgetting the counters gives the functions of `Verif.Model.Osc`.
-/

namespace Adwt
variable {K C : Type} [Field K] [LinearOrder K] [FloorRing K]
variable [Zero C] [Add C] [Sub C] [Mul C] [Div C]

namespace Sys

/-- `computeISumFwd`, `adwt/adwt.cpp:161-246`, counting the iterations of its loop. -/
def computeISumFwdW (S : Sys K C) (wt : WavetableData K) (crt mip jminRed jmaxPRed : Int)
    (d phaseRed : K) (a : Nat → C) : R ((Nat → C) × Nat) := do
  let len ← wt.waveformLen mip
  let mds ← wt.mDiffSpan crt mip
  let qds ← wt.qDiffSpan crt mip
  let phs ← wt.phaseSpan mip
  (irange jminRed (bornSup jminRed jmaxPRed len)).foldlM
    (fun s i => do
      let a ← S.iSumFwdStep mds qds phs len jmaxPRed d phaseRed s.1 i
      return (a, s.2 + 1)) (a, 0)

/-- `computeISumBwd`, `adwt/adwt.cpp:248-334`, counting the iterations of its loop. -/
def computeISumBwdW (S : Sys K C) (wt : WavetableData K) (crt mip jmin jminRed jmaxPRed : Int)
    (d phaseRed : K) (a : Nat → C) : R ((Nat → C) × Nat) := do
  chk S.env.dbg (d < 0)
  let len ← wt.waveformLen mip
  let mds ← wt.mDiffSpan crt mip
  let qds ← wt.qDiffSpan crt mip
  let phs ← wt.phaseSpan mip
  (irange jminRed (bornSup jminRed jmaxPRed len)).foldlM
    (fun s i => do
      let a ← S.iSumBwdStep mds qds phs len jmaxPRed (cycleOffset jmin jminRed jmaxPRed) d phaseRed
        s.1 i
      return (a, s.2 + 1)) (a, 0)

/-- `computeBwdI`, `adwt/adwt.cpp:336-353`, with the count. -/
def computeBwdIW (S : Sys K C) (wt : WavetableData K) (crt : Int) (prevPhaseRed : K)
    (mip jmin jminRed jmaxPRed : Int) (d phaseRed : K) (a : Nat → C) : R ((Nat → C) × Nat) := do
  chk S.env.dbg (d < 0)
  let bar := S.env.fl (phaseRed + ofBool (decide (phaseRed = 0)))
  let a ← S.computeI0 wt crt mip jmaxPRed jminRed d prevPhaseRed bar a
  S.computeISumBwdW wt crt mip jmin jminRed jmaxPRed d phaseRed a

/-- `computeFwdI`, `adwt/adwt.cpp:355-369`, with the count. -/
def computeFwdIW (S : Sys K C) (wt : WavetableData K) (crt : Int) (prevPhaseRed : K)
    (mip jminRed jmaxPRed : Int) (d phaseRed : K) (a : Nat → C) : R ((Nat → C) × Nat) := do
  let bar := S.env.fl (prevPhaseRed + ofBool (decide (prevPhaseRed = 0)))
  let a ← S.computeI0 wt crt mip jminRed jmaxPRed d bar phaseRed a
  S.computeISumFwdW wt crt mip jminRed jmaxPRed d phaseRed a

/-- "Needs to crossfade with upper mipmap entry", `adwt/adwt.cpp:457-480` and `563-586`, with the
counts for the lower and the upper table. -/
def withUpperW (S : Sys K C) (t : MipMapIndices K) (a : (Nat → C) × Nat)
    (up : R ((Nat → C) × Nat)) : R ((Nat → C) × Nat × Nat) :=
  if t.weightUp ≠ 0 then do
    let b ← up
    return (S.crossfade t.weight t.weightUp a.1 b.1, a.2, b.2)
  else .ok (a.1, a.2, 0)

/-- `processSampleFwd`, `adwt/adwt.cpp:409-501`, with the counts for the lower and the upper
table. -/
def processSampleFwdW (S : Sys K C) (o : Osc K C) (phase d : K) :
    R ((Osc K C × K) × Nat × Nat) := do
  let E := S.env
  chk E.dbg (d > 0 ∧ d ≤ 1 / 2)
  match o.wt with
  | none => .error .nullDeref
  | some wt0 => do
    let (wt, t) ← wt0.findMipMapIndices E d
    let phs ← wt.phaseSpan t.idx
    let phaseRed ← Maths.reduceF E phase 1
    let len ← wt.waveformLen t.idx
    let j0 ← adjustJ phs t.idx o.prevMip o.jRed o.prevPhaseDiff o.prevPhaseRed
    let prevJ ← prevJFwd E.fl phs j0 o.prevPhaseDiff o.prevPhaseRed
    let j ← Maths.floor E.fl (E.fl (phaseRed * E.fl (len : K)))
    let jminRed ← Maths.reduceI E.dbg (prevJ - 1) len
    let jmaxPRed ← Maths.reduceI E.dbg j len
    let a ← S.computeFwdIW wt o.crt o.prevPhaseRed t.idx jminRed jmaxPRed d phaseRed (fun _ => 0)
    let (a, w) ← S.withUpperW t a (S.computeFwdIW wt o.crt o.prevPhaseRed t.idxUp (jminRed.tdiv 2)
      (jmaxPRed.tdiv 2) d phaseRed (fun _ => 0))
    let y := S.cpxY o.prevY a
    return (({ wt := some wt, prevY := y, prevPhase := phase, prevPhaseRed := phaseRed,
               prevPhaseDiff := d, prevMip := t.idx, jRed := j, prevJRed := prevJ,
               crt := o.crt }, S.outReal y), w)

/-- `processSampleBwd`, `adwt/adwt.cpp:503-607`, with the counts for the lower and the upper
table. -/
def processSampleBwdW (S : Sys K C) (o : Osc K C) (phase d : K) :
    R ((Osc K C × K) × Nat × Nat) := do
  let E := S.env
  chk E.dbg (d < 0 ∧ d ≥ -(1 / 2))
  match o.wt with
  | none => .error .nullDeref
  | some wt0 => do
    let (wt, t) ← wt0.findMipMapIndices E |d|
    let phs ← wt.phaseSpan t.idx
    let phaseRed ← Maths.reduceF E phase 1
    let len ← wt.waveformLen t.idx
    let j0 ← adjustJ phs t.idx o.prevMip o.jRed o.prevPhaseDiff o.prevPhaseRed
    let prevJ ← prevJBwd E.fl phs j0 o.prevPhaseDiff o.prevPhaseRed
    let j ← Maths.ceil E.fl (E.fl (phaseRed * E.fl (len : K)))
    let jminRed ← Maths.reduceI E.dbg (j - 1) len
    let jmaxPRed ← Maths.reduceI E.dbg prevJ len
    let a ← S.computeBwdIW wt o.crt o.prevPhaseRed t.idx j jminRed jmaxPRed d phaseRed
      (fun _ => 0)
    let (a, w) ← S.withUpperW t a (S.computeBwdIW wt o.crt o.prevPhaseRed t.idxUp j
      (jminRed.tdiv 2) (jmaxPRed.tdiv 2) d phaseRed (fun _ => 0))
    let y := S.cpxY o.prevY a
    return (({ wt := some wt, prevY := y, prevPhase := phase, prevPhaseRed := phaseRed,
               prevPhaseDiff := d, prevMip := t.idx, jRed := j, prevJRed := prevJ,
               crt := o.crt }, S.outReal y), w)

/-- One iteration of `processFwd`, `adwt/adwt.cpp:376-384`, with the counts. -/
def stepFwdW (S : Sys K C) (o : Osc K C) (phase : K) : R ((Osc K C × K) × Nat × Nat) := do
  let E := S.env
  let d0 := E.fl (phase - o.prevPhase)
  let d := if d0 < 0 then E.fl (d0 + 1) else d0
  chk E.dbg (d > 0 ∧ d ≤ 1 / 2)
  S.processSampleFwdW o phase d

/-- One iteration of `processBi`, `adwt/adwt.cpp:392-406`, with the counts. -/
def stepBiW (S : Sys K C) (o : Osc K C) (phase : K) : R ((Osc K C × K) × Nat × Nat) :=
  let d := biDiff S.env.fl phase o.prevPhase
  if d ≥ 0 then S.processSampleFwdW o phase d else S.processSampleBwdW o phase d

/-- One iteration of the selected loop, `adwt/adwt.hpp:150-156`, with the counts. -/
def stepDirW (S : Sys K C) : Direction → Osc K C → K → R ((Osc K C × K) × Nat × Nat)
  | .kForward => S.stepFwdW
  | .kBidirectionnal => S.stepBiW

/-- The loops over the phases, `adwt/adwt.cpp:376-384, 392-406`, collecting the output samples and
the counts of each sample. -/
def runDirW (S : Sys K C) (dir : Direction) (o : Osc K C) :
    List K → R ((Osc K C × List K) × List (Nat × Nat))
  | [] => .ok ((o, []), [])
  | p :: ps => do
    let ((o1, y), w) ← S.stepDirW dir o p
    let ((o2, ys), ws) ← S.runDirW dir o1 ps
    return ((o2, y :: ys), w :: ws)

/-- `process<Dir>(phases, output)`, `adwt/adwt.hpp:149-156`, `adwt/adwt.cpp:371-407`, with the
counts of each sample. -/
def processW (S : Sys K C) (dir : Direction) (o : Osc K C) (phases output : List K) :
    R ((Osc K C × List K) × List (Nat × Nat)) := do
  if o.wt.isNone then chk S.env.dbg False
  chk S.env.dbg (phases.length = output.length)
  let ((o', ys), ws) ← S.runDirW dir o (phases.take output.length)
  return ((o', ys ++ output.drop ys.length), ws)

end Sys
end Adwt
