import Verif.Model.Wavetable
import Verif.Model.Filter

/-!
# `adwt/adwt.hpp` and `adwt/adwt.cpp`
-/

namespace Adwt
variable {K C : Type} [Field K] [LinearOrder K] [FloorRing K]
variable [Zero C] [Add C] [Sub C] [Mul C] [Div C]

/-- Operations on `std::complex<float>` and on SIMD batches that are not `+ - * /`. No laws are
required. `fma x y z`, `fms x y z`, `fnma x y z` are xsimd's `x*y+z`, `x*y-z`, `-(x*y)+z`;
`vexp` is `xs::exp`, `exp` is `std::exp`. -/
structure COps (K C : Type) where
  ofK : K → C
  re : C → K
  exp : C → C
  vexp : C → C
  fma : C → C → C → C
  fms : C → C → C → C
  fnma : C → C → C → C

/-- Everything fixed at compile or construction time of an `Oscillator<Ftype>`: the environment,
complex arithmetic, the filter, and the SIMD batch size `kBatchSize` (`adwt/adwt.hpp:202-203`). -/
structure Sys (K C : Type) [Field K] where
  env : Env K
  ops : COps K C
  flt : Filter C
  B : Nat

/-- The non-constant members of `Oscillator`, `adwt/adwt.hpp:387-409`. -/
structure Osc (K C : Type) where
  wt : Option (WavetableData K)
  prevY : List C
  prevPhase : K
  prevPhaseRed : K
  prevPhaseDiff : K
  prevMip : Int
  jRed : Int
  prevJRed : Int
  crt : Int

namespace Sys

/-- `kNumCoeffs`, `adwt/adwt.hpp:231`. -/
def n (S : Sys K C) : Nat := S.flt.r.length

/-- `computeUpperNumCoeffs`, `adwt/adwt.hpp:216-229`. The `maths::floor` of the float quotient is
modelled by natural number division. -/
def upperNumCoeffs (n B : Nat) : Nat :=
  if n / B = 0 then B else if n % B = 0 then n / B * B else (n / B + 1) * B

/-- `kUpperNumCoeffs`, `adwt/adwt.hpp:232`. -/
def upper (S : Sys K C) : Nat := upperNumCoeffs S.n S.B

/-- `r_array_`, zero padded, `adwt/adwt.hpp:353-359`. -/
def rA (S : Sys K C) (k : Nat) : C := S.flt.r.getD k 0
/-- `z_array_`, zero padded, `adwt/adwt.hpp:361-367`. -/
def zA (S : Sys K C) (k : Nat) : C := S.flt.z.getD k 0
/-- `z_pow2_array_`, zero padded, `adwt/adwt.hpp:369-375`, `adwt/filter_type.hpp:107-117`. -/
def zPow2A (S : Sys K C) (k : Nat) : C := (S.flt.z.map fun z => z * z).getD k 0
/-- `exp_z_array_`, zero padded, `adwt/adwt.hpp:377-383`, `adwt/filter_type.hpp:119-129`. -/
def expZA (S : Sys K C) (k : Nat) : C := (S.flt.z.map S.ops.exp).getD k 0

/-- One SIMD batch: aligned loads at `i`, lane-wise computation, aligned store at `i`. The
arrays have `upper` entries. `std::array` contents are functions of the index here. -/
def batch (upper B i : Nat) (f : Nat → C → C) (a : Nat → C) : R (Nat → C) :=
  if i + B ≤ upper then
    .ok fun k => if i ≤ k ∧ k < i + B then f k (a k) else a k
  else .error .outOfBounds

/-- The loop skeleton shared by `computeI0` (`adwt/adwt.cpp:126-158`), `computeISumFwd`
(`adwt/adwt.cpp:197-244`) and `computeISumBwd` (`adwt/adwt.cpp:286-332`): whole batches, then
the remaining coefficients either as one padded batch (`kPartialSize > kBatchThreshold = 1`) or
one by one. `fv` is the lane function of the SIMD code, `fs` that of the scalar code; both get
the coefficient index and the old array entry. -/
def overCoeffs (n B : Nat) (fv fs : Nat → C → C) (a : Nat → C) : R (Nat → C) := do
  let partialSize := n % B
  let wholeSize := n - partialSize
  let up := upperNumCoeffs n B
  let a1 ← (List.range (wholeSize / B)).foldlM (fun a b => batch up B (b * B) fv a) a
  if partialSize > 1 then batch up B wholeSize fv a1
  else
    return (List.range' wholeSize (n - wholeSize)).foldl
      (fun a i => fun k => if k = i then fs i (a i) else a k) a1

/-- `computeI0`, `adwt/adwt.cpp:95-159`. -/
def computeI0 (S : Sys K C) (wt : WavetableData K) (crt mip idxPrev idxNext : Int)
    (d prevBar nextBar : K) (a : Nat → C) : R (Nat → C) := do
  let fl := S.env.fl
  let m ← wt.mSpan crt mip
  let q ← wt.qSpan crt mip
  let mp ← rd m idxPrev
  let qp ← rd q idxPrev
  let mn ← rd m idxNext
  let qn ← rd q idxNext
  let partA := S.ops.ofK (fl (mp * d))
  let partB := S.ops.ofK (S.env.mad mp prevBar qp)
  let partC := S.ops.ofK (fl (mn * d))
  let partD := S.ops.ofK (S.env.mad mn nextBar qn)
  overCoeffs S.n S.B
    (fun k _ => S.ops.fnma (S.zA k) partD
      (S.ops.fms (S.expZA k) (S.ops.fma (S.zA k) partB partA) partC))
    (fun k _ => S.expZA k * (partA + S.zA k * partB) - partC - S.zA k * partD)
    a

/-- The factor `z * qdiff + mdiff * (phase_diff + z * phase)` with the exponential, as computed
by the scalar code, `adwt/adwt.cpp:238-242` and `326-330`. -/
def cornerS (S : Sys K C) (partA d ph md qd : K) (k : Nat) : C :=
  S.ops.exp (S.zA k * S.ops.ofK partA) *
    (S.zA k * S.ops.ofK qd + S.ops.ofK md * (S.ops.ofK d + S.zA k * S.ops.ofK ph))

/-- `tmp_2` of the SIMD code, `adwt/adwt.cpp:203-208`. -/
def cornerV (S : Sys K C) (d ph md qd : K) (k : Nat) : C :=
  S.ops.fma (S.zA k) (S.ops.ofK qd)
    (S.ops.fma (S.zA k) (S.ops.ofK ph) (S.ops.ofK d) * S.ops.ofK md)

/-- `born_sup`, `adwt/adwt.cpp:167-168` and `255-256`. -/
def bornSup (jminRed jmaxPRed len : Int) : Int :=
  jmaxPRed + (if jminRed > jmaxPRed then len else 0)

/-- `iter::range(a, b)` on `int`. -/
def irange (a b : Int) : List Int := (List.range (b - a).toNat).map fun (k : Nat) => a + (k : Int)

/-- One iteration of the corner loop of `computeISumFwd`, `adwt/adwt.cpp:183-245`. -/
def iSumFwdStep (S : Sys K C) (mds qds phs : List K) (len jmaxPRed : Int) (d phaseRed : K)
    (a : Nat → C) (i : Int) : R (Nat → C) := do
  let fl := S.env.fl
  let iRed ← Maths.reduceI S.env.dbg i len
  let bar := fl (phaseRed + ofBool (decide (iRed > jmaxPRed)))
  let ph ← rd phs (iRed + 1)
  let partA ← fdiv fl (fl (bar - ph)) d
  let md ← rd mds iRed
  let qd ← rd qds iRed
  overCoeffs S.n S.B
    (fun k old => S.ops.fma (S.ops.vexp (S.zA k * S.ops.ofK partA)) (S.cornerV d ph md qd k) old)
    (fun k old => old + S.cornerS partA d ph md qd k)
    a

/-- `computeISumFwd`, `adwt/adwt.cpp:161-246`. -/
def computeISumFwd (S : Sys K C) (wt : WavetableData K) (crt mip jminRed jmaxPRed : Int)
    (d phaseRed : K) (a : Nat → C) : R (Nat → C) := do
  let len ← wt.waveformLen mip
  let mds ← wt.mDiffSpan crt mip
  let qds ← wt.qDiffSpan crt mip
  let phs ← wt.phaseSpan mip
  (irange jminRed (bornSup jminRed jmaxPRed len)).foldlM
    (S.iSumFwdStep mds qds phs len jmaxPRed d phaseRed) a

/-- `cycle_offset`, `adwt/adwt.cpp:257`. -/
def cycleOffset (jmin jminRed jmaxPRed : Int) : K :=
  if jmin ≠ 0 ∧ jminRed > jmaxPRed then -1 else 0

/-- One iteration of the corner loop of `computeISumBwd`, `adwt/adwt.cpp:272-333`. -/
def iSumBwdStep (S : Sys K C) (mds qds phs : List K) (len jmaxPRed : Int) (off d phaseRed : K)
    (a : Nat → C) (i : Int) : R (Nat → C) := do
  let fl := S.env.fl
  let iRed ← Maths.reduceI S.env.dbg i len
  let bar := fl (fl (phaseRed + off) + ofBool (decide (iRed > jmaxPRed)))
  let ph ← rd phs (iRed + 1)
  let partA ← fdiv fl (fl (bar - ph)) d
  let md ← rd mds iRed
  let qd ← rd qds iRed
  overCoeffs S.n S.B
    (fun k old => S.ops.fnma (S.ops.vexp (S.zA k * S.ops.ofK partA)) (S.cornerV d ph md qd k) old)
    (fun k old => old - S.cornerS partA d ph md qd k)
    a

/-- `computeISumBwd`, `adwt/adwt.cpp:248-334`. -/
def computeISumBwd (S : Sys K C) (wt : WavetableData K) (crt mip jmin jminRed jmaxPRed : Int)
    (d phaseRed : K) (a : Nat → C) : R (Nat → C) := do
  chk S.env.dbg (d < 0)
  let len ← wt.waveformLen mip
  let mds ← wt.mDiffSpan crt mip
  let qds ← wt.qDiffSpan crt mip
  let phs ← wt.phaseSpan mip
  (irange jminRed (bornSup jminRed jmaxPRed len)).foldlM
    (S.iSumBwdStep mds qds phs len jmaxPRed (cycleOffset jmin jminRed jmaxPRed) d phaseRed) a

/-- `computeBwdI`, `adwt/adwt.cpp:336-353`. -/
def computeBwdI (S : Sys K C) (wt : WavetableData K) (crt : Int) (prevPhaseRed : K)
    (mip jmin jminRed jmaxPRed : Int) (d phaseRed : K) (a : Nat → C) : R (Nat → C) := do
  chk S.env.dbg (d < 0)
  let bar := S.env.fl (phaseRed + ofBool (decide (phaseRed = 0)))
  let a ← S.computeI0 wt crt mip jmaxPRed jminRed d prevPhaseRed bar a
  S.computeISumBwd wt crt mip jmin jminRed jmaxPRed d phaseRed a

/-- `computeFwdI`, `adwt/adwt.cpp:355-369`. -/
def computeFwdI (S : Sys K C) (wt : WavetableData K) (crt : Int) (prevPhaseRed : K)
    (mip jminRed jmaxPRed : Int) (d phaseRed : K) (a : Nat → C) : R (Nat → C) := do
  let bar := S.env.fl (prevPhaseRed + ofBool (decide (prevPhaseRed = 0)))
  let a ← S.computeI0 wt crt mip jminRed jmaxPRed d bar phaseRed a
  S.computeISumFwd wt crt mip jminRed jmaxPRed d phaseRed a

/-- "Adjust j_red_ if changing mipmap table", `adwt/adwt.cpp:422-435` and, textually identical,
`adwt/adwt.cpp:516-529`. -/
def adjustJ (phaseSpan : List K) (mip prevMip jRed : Int) (prevPhaseDiff prevPhaseRed : K) :
    R Int :=
  if mip > prevMip then .ok (jRed / 2 ^ (mip - prevMip).toNat)
  else if mip < prevMip then
    let j := jRed * 2 ^ (prevMip - mip).toNat
    if prevPhaseDiff > 0 then do
      let p ← rd phaseSpan (j + 1)
      return j + (if p < prevPhaseRed then 1 else 0)
    else do
      let p ← rd phaseSpan (j - 1)
      return j - (if p > prevPhaseRed then 1 else 0)
  else .ok jRed

/-- The crossfade between the two I arrays, `adwt/adwt.cpp:469-479` and `575-585`: over the whole
padded array if `kPartialSize > kBatchThreshold`, otherwise over `kNumCoeffs` entries. -/
def crossfade (S : Sys K C) (w wUp : K) (a b : Nat → C) : Nat → C := fun k =>
  if k < (if S.n % S.B > 1 then S.upper else S.n) then
    a k * S.ops.ofK w + b k * S.ops.ofK wUp
  else a k

/-- "Check if on the same slope as the previous iteration", forward, `adwt/adwt.cpp:437-441`. -/
def prevJFwd (fl : K → K) (phs : List K) (j0 : Int) (prevPhaseDiff prevPhaseRed : K) : R Int :=
  if prevPhaseDiff ≥ 0 then do
    let p ← rd phs j0
    return j0 + Maths.sign (fl (prevPhaseRed - p))
  else .ok j0

/-- "Check if on the same slope as the previous iteration", backward, `adwt/adwt.cpp:542-546`. -/
def prevJBwd (fl : K → K) (phs : List K) (j0 : Int) (prevPhaseDiff prevPhaseRed : K) : R Int :=
  if prevPhaseDiff ≤ 0 then do
    let p ← rd phs j0
    return j0 + Maths.sign (fl (prevPhaseRed - p))
  else .ok j0

/-- "Needs to crossfade with upper mipmap entry", `adwt/adwt.cpp:457-480` and `563-586`: `up` is
the call computing the upper table's sum. -/
def withUpper (S : Sys K C) (t : MipMapIndices K) (a : Nat → C) (up : R (Nat → C)) :
    R (Nat → C) :=
  if t.weightUp ≠ 0 then do
    let b ← up
    return S.crossfade t.weight t.weightUp a b
  else .ok a

/-- Formula (10) for each order, `adwt/adwt.cpp:482-488` and `588-594`. -/
def cpxY (S : Sys K C) (prevY : List C) (a : Nat → C) : List C :=
  (List.range S.n).map fun k =>
    S.expZA k * prevY.getD k 0 + S.ops.ofK 2 * S.rA k * (a k / S.zPow2A k)

/-- "Write the real part of the sum to the output", `adwt/adwt.cpp:490-493` and `596-599`. -/
def outReal (S : Sys K C) (y : List C) : K := S.ops.re (y.foldl (· + ·) 0)

/-- `processSampleFwd`, `adwt/adwt.cpp:409-501`. -/
def processSampleFwd (S : Sys K C) (o : Osc K C) (phase d : K) : R (Osc K C × K) := do
  let E := S.env
  chk E.dbg (d > 0 ∧ d ≤ 1 / 2)
  match o.wt with
  | none => .error .nullDeref
  | some wt0 => do
    let (wt, t) ← wt0.findMipMapIndices E d
    let phs ← wt.phaseSpan t.idx
    let phaseRed ← Maths.reduceF E phase 1
    let len ← wt.waveformLen t.idx
    let j0 ← adjustJ phs t.idx o.prevMip o.jRed o.prevPhaseDiff o.prevPhaseRed
    let prevJ ← prevJFwd E.fl phs j0 o.prevPhaseDiff o.prevPhaseRed
    let j ← Maths.floor E.fl (E.fl (phaseRed * E.fl (len : K)))
    let jminRed ← Maths.reduceI E.dbg (prevJ - 1) len
    let jmaxPRed ← Maths.reduceI E.dbg j len
    let a ← S.computeFwdI wt o.crt o.prevPhaseRed t.idx jminRed jmaxPRed d phaseRed (fun _ => 0)
    let a ← S.withUpper t a (S.computeFwdI wt o.crt o.prevPhaseRed t.idxUp (jminRed.tdiv 2)
      (jmaxPRed.tdiv 2) d phaseRed (fun _ => 0))
    let y := S.cpxY o.prevY a
    return ({ wt := some wt, prevY := y, prevPhase := phase, prevPhaseRed := phaseRed,
              prevPhaseDiff := d, prevMip := t.idx, jRed := j, prevJRed := prevJ,
              crt := o.crt }, S.outReal y)

/-- `processSampleBwd`, `adwt/adwt.cpp:503-607`. -/
def processSampleBwd (S : Sys K C) (o : Osc K C) (phase d : K) : R (Osc K C × K) := do
  let E := S.env
  chk E.dbg (d < 0 ∧ d ≥ -(1 / 2))
  match o.wt with
  | none => .error .nullDeref
  | some wt0 => do
    let (wt, t) ← wt0.findMipMapIndices E |d|
    let phs ← wt.phaseSpan t.idx
    let phaseRed ← Maths.reduceF E phase 1
    let len ← wt.waveformLen t.idx
    let j0 ← adjustJ phs t.idx o.prevMip o.jRed o.prevPhaseDiff o.prevPhaseRed
    let prevJ ← prevJBwd E.fl phs j0 o.prevPhaseDiff o.prevPhaseRed
    let j ← Maths.ceil E.fl (E.fl (phaseRed * E.fl (len : K)))
    let jminRed ← Maths.reduceI E.dbg (j - 1) len
    let jmaxPRed ← Maths.reduceI E.dbg prevJ len
    let a ← S.computeBwdI wt o.crt o.prevPhaseRed t.idx j jminRed jmaxPRed d phaseRed (fun _ => 0)
    let a ← S.withUpper t a (S.computeBwdI wt o.crt o.prevPhaseRed t.idxUp j (jminRed.tdiv 2)
      (jmaxPRed.tdiv 2) d phaseRed (fun _ => 0))
    let y := S.cpxY o.prevY a
    return ({ wt := some wt, prevY := y, prevPhase := phase, prevPhaseRed := phaseRed,
              prevPhaseDiff := d, prevMip := t.idx, jRed := j, prevJRed := prevJ,
              crt := o.crt }, S.outReal y)

/-- One iteration of `processFwd`, `adwt/adwt.cpp:376-384`. -/
def stepFwd (S : Sys K C) (o : Osc K C) (phase : K) : R (Osc K C × K) := do
  let E := S.env
  let d0 := E.fl (phase - o.prevPhase)
  let d := if d0 < 0 then E.fl (d0 + 1) else d0
  chk E.dbg (d > 0 ∧ d ≤ 1 / 2)
  S.processSampleFwd o phase d

/-- The step chosen by `processBi`, `adwt/adwt.cpp:393-399`. -/
def biDiff (fl : K → K) (phase prev : K) : K :=
  let d0 := fl (phase - prev)
  if d0 < -(1 / 2) then fl (d0 + 1) else if d0 > 1 / 2 then fl (d0 - 1) else d0

/-- One iteration of `processBi`, `adwt/adwt.cpp:392-406`. -/
def stepBi (S : Sys K C) (o : Osc K C) (phase : K) : R (Osc K C × K) :=
  let d := biDiff S.env.fl phase o.prevPhase
  if d ≥ 0 then S.processSampleFwd o phase d else S.processSampleBwd o phase d

/-- `Direction`, `adwt/direction.hpp:30`. -/
inductive Direction where
  | kForward | kBidirectionnal
deriving DecidableEq

/-- One iteration of the selected loop, `adwt/adwt.hpp:150-156`. -/
def stepDir (S : Sys K C) : Direction → Osc K C → K → R (Osc K C × K)
  | .kForward => S.stepFwd
  | .kBidirectionnal => S.stepBi

/-- The loops over the phases of `processFwd` / `processBi`, `adwt/adwt.cpp:376-384, 392-406`,
collecting the output samples in order. -/
def runDir (S : Sys K C) (dir : Direction) (o : Osc K C) : List K → R (Osc K C × List K)
  | [] => .ok (o, [])
  | p :: ps => do
    let (o1, y) ← S.stepDir dir o p
    let (o2, ys) ← S.runDir dir o1 ps
    return (o2, y :: ys)

/-- `process<Dir>(phases, output)`, `adwt/adwt.hpp:149-156`, `adwt/adwt.cpp:371-407`. The loop
zips both spans, so in release builds the shorter one decides; the result is the new content of
the output buffer. -/
def process (S : Sys K C) (dir : Direction) (o : Osc K C) (phases output : List K) :
    R (Osc K C × List K) := do
  if o.wt.isNone then chk S.env.dbg False
  chk S.env.dbg (phases.length = output.length)
  let (o', ys) ← S.runDir dir o (phases.take output.length)
  return (o', ys ++ output.drop ys.length)

/-- `Oscillator()`, `adwt/adwt.cpp:39-45`, with the member initialisers of
`adwt/adwt.hpp:400-409`. -/
def fresh (S : Sys K C) : Osc K C :=
  { wt := none, prevY := List.replicate S.n 0, prevPhase := 0, prevPhaseRed := 0,
    prevPhaseDiff := 0, prevMip := 0, jRed := 0, prevJRed := 0, crt := 0 }

/-- The initial table position, `adwt/adwt.cpp:85-89`. -/
def segIndex (fl : K → K) (fwd : Prop) [Decidable fwd] (x : K) : R Int :=
  if fwd then Maths.floor fl x else Maths.ceil fl x

/-- `resetInternals`, `adwt/adwt.cpp:73-90`. -/
def resetInternals (S : Sys K C) (o : Osc K C) (phase d : K) : R (Osc K C) := do
  let E := S.env
  match o.wt with
  | none => do
    chk E.dbg False
    .error .nullDeref
  | some wt0 => do
    let phaseRed ← Maths.reduceF E phase 1
    let (wt, t) ← wt0.findMipMapIndices E |d|
    let len ← wt.waveformLen t.idx
    let j ← segIndex E.fl (d ≥ 0) (E.fl (phaseRed * E.fl (len : K)))
    return { o with wt := some wt, prevY := List.replicate S.n 0, prevPhase := phase,
                    prevPhaseRed := phaseRed, prevPhaseDiff := d, prevMip := t.idx, jRed := j }

/-- `init`, `adwt/adwt.cpp:48-58`; the `Int` is the return value. -/
def init (S : Sys K C) (o : Osc K C) (w : Option (WavetableData K)) (phase d : K) :
    R (Osc K C × Int) :=
  match w with
  | none => .ok (o, 1)
  | some wt => do
    let o ← S.resetInternals { o with wt := some wt } phase d
    return ({ o with crt := 0 }, 0)

/-- `swapWavetable`, `adwt/adwt.cpp:60-71`; returns the pointer handed back. -/
def swapWavetable (S : Sys K C) (o : Osc K C) (w : Option (WavetableData K)) (phase d : K) :
    R (Osc K C × Option (WavetableData K)) :=
  match w with
  | none => .ok (o, none)
  | some wt => do
    let old := o.wt
    let o ← S.resetInternals { o with wt := some wt } phase d
    return ({ o with crt := 0 }, old)

/-- `Oscillator::updateSamplerate`, `adwt/adwt.hpp:134-137`: passes only the samplerate, so the
crossfade duration falls back to its default. -/
def updateSamplerate (S : Sys K C) (o : Osc K C) (sr : K) : R (Osc K C) :=
  match o.wt with
  | none => do
    chk S.env.dbg False
    .error .nullDeref
  | some wt => do
    let wt' ← wt.updateSamplerate S.env sr (WavetableData.defaultDuration S.env)
    return { o with wt := some wt' }

/-- `setWaveform`, `adwt/adwt.hpp:178-181`. -/
def setWaveform (S : Sys K C) (o : Osc K C) (i : Int) : R (Osc K C) := do
  chk S.env.dbg (o.wt.isSome = true)
  return { o with crt := i }

/-- `numWaveforms`, `adwt/adwt.hpp:162-165`. -/
def numWaveforms (S : Sys K C) (o : Osc K C) : R Int :=
  match o.wt with
  | none => do
    chk S.env.dbg False
    .error .nullDeref
  | some wt => .ok wt.numWaveforms

end Sys
end Adwt
