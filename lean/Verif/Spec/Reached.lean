import Verif.Spec.History
import Verif.Spec.Tables

/-!
# States of an oscillator reached by legal calls
-/

namespace Adwt
variable {K C : Type} [Field K] [LinearOrder K] [IsStrictOrderedRing K] [FloorRing K]
variable [Zero C] [Add C] [Sub C] [Mul C] [Div C]

/-- `wt` was returned by `build` for `nw` waveforms of length `2^L`, at a samplerate that is a
float, with a crossfade of at least one sample. -/
def Built (E : Env K) (ws : List K) (nw L : ℕ) (sr dur : K) (wt : WavetableData K) : Prop :=
  IsRate E.fl sr ∧ 1 ≤ E.fl (dur * sr) ∧ ws.length = nw * 2 ^ L ∧
    WavetableData.build E ws nw sr dur = .ok (some wt)

/-- An initial state the API accepts: a phase and a nonzero step. -/
def InitOk (fl : K → K) (p d : K) : Prop := PhaseOk fl p ∧ d ≠ 0

/-- The states reached by any sequence of legal calls; `nw` and `L` are the number of waveforms and
the logarithm of the waveform length of the wavetable loaded. -/
inductive Reached (S : Sys K C) : ℕ → ℕ → Osc K C → Prop where
  /-- `init` of any oscillator with a built wavetable -/
  | init {ws nw L sr dur wt o p d o' r} (hb : Built S.env ws nw L sr dur wt)
      (hi : InitOk S.env.fl p d) (h : S.init o (some wt) p d = .ok (o', r)) : Reached S nw L o'
  /-- `swapWavetable` with a built wavetable -/
  | swap {nw' L' ws nw L sr dur wt o p d o' old} (ho : Reached S nw' L' o)
      (hb : Built S.env ws nw L sr dur wt) (hi : InitOk S.env.fl p d)
      (h : S.swapWavetable o (some wt) p d = .ok (o', old)) : Reached S nw L o'
  /-- `swapWavetable` with a wavetable that was in use in another (or the same) oscillator -/
  | swapUsed {nw' L' nw L wt o o2 p d o' old} (ho : Reached S nw' L' o) (h2 : Reached S nw L o2)
      (hw : o2.wt = some wt) (hi : InitOk S.env.fl p d)
      (h : S.swapWavetable o (some wt) p d = .ok (o', old)) : Reached S nw L o'
  /-- `process` -/
  | process {nw L o dir ps out o' ys} (ho : Reached S nw L o)
      (hp : BlockOk S.env.fl dir o.prevPhase ps) (hl : ps.length = out.length)
      (h : S.process dir o ps out = .ok (o', ys)) : Reached S nw L o'
  /-- `setWaveform` with an existing waveform -/
  | setWaveform {nw L o} {i : ℤ} {o'} (ho : Reached S nw L o) (h0 : 0 ≤ i) (h1 : i < nw)
      (h : S.setWaveform o i = .ok o') : Reached S nw L o'
  /-- `resetInternals` -/
  | reset {nw L o p d o'} (ho : Reached S nw L o) (hi : InitOk S.env.fl p d)
      (h : S.resetInternals o p d = .ok o') : Reached S nw L o'
  /-- `updateSamplerate` to a float samplerate at which 5 ms are at least one sample -/
  | updateSamplerate {nw L o sr o'} (ho : Reached S nw L o) (hs : IsRate S.env.fl sr)
      (hx : 1 ≤ S.env.fl (WavetableData.defaultDuration S.env * sr))
      (h : S.updateSamplerate o sr = .ok o') : Reached S nw L o'

/-- The last step was a backward one and ended at phase 0. -/
def AtZeroBackward (o : Osc K C) : Prop := o.prevPhase = 0 ∧ o.prevPhaseDiff < 0

/-- The step computed in forward mode from the phase `p` and the previous phase `prev`. -/
def Sys.fwdDiff (fl : K → K) (p prev : K) : K :=
  let d0 := fl (p - prev)
  if d0 < 0 then fl (d0 + 1) else d0

/-- The step computed in either mode. -/
def Sys.dirDiff (fl : K → K) : Sys.Direction → K → K → K
  | .kForward, p, prev => Sys.fwdDiff fl p prev
  | .kBidirectionnal, p, prev => Sys.biDiff fl p prev

/-- A sample with step `d` will use a lower table than the previous sample did. -/
def DropsTable (S : Sys K C) (o : Osc K C) (d : K) : Prop :=
  ∃ wt wt' t, o.wt = some wt ∧ wt.findMipMapIndices S.env |d| = .ok (wt', t) ∧ t.idx < o.prevMip

/-- A sequence of `swapWavetable` calls: final state and the pointers handed back, in order. -/
def runSwaps (S : Sys K C) (o : Osc K C) :
    List (Option (WavetableData K) × K × K) → R (Osc K C × List (Option (WavetableData K)))
  | [] => .ok (o, [])
  | (w, p, d) :: rest => do
    let (o1, back) ← S.swapWavetable o w p d
    let (o2, backs) ← runSwaps S o1 rest
    return (o2, back :: backs)

/-- What identifies a wavetable: all of its tables. (Its crossfader changes while playing.) -/
def tablesOf (wt : WavetableData K) :
    List (List (List K)) × List (List (List K)) × List (List (List K)) × List (List (List K)) ×
      List (List K) := (wt.m, wt.q, wt.mDiff, wt.qDiff, wt.phases)

end Adwt
