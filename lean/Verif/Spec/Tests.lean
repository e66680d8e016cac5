import Verif.Spec.Reached
import Verif.Spec.Outputs
import Verif.Num.Rne

/-!
# A new oscillator, and histories with changes of the samplerate
-/

namespace Adwt
variable {K C : Type} [Field K] [LinearOrder K] [IsStrictOrderedRing K] [FloorRing K]
variable [Zero C] [Add C] [Sub C] [Mul C] [Div C]

/-- What a new oscillator plays: `init` with the wavetable `wt` and the state `(p, d)`,
`setWaveform(c)`, then the calls `ops`. -/
def freshRun (S : Sys K C) (wt : WavetableData K) (p d : K) (c : ℤ) (ops : List (Op K)) : R (List K) := do
  let (o, _) ← S.init S.fresh (some wt) p d
  outputs (runOps S o (.setWaveform c :: ops))

/-- The oscillator was initialised with a wavetable built from `ws`; since then it played, was reset, other
waveforms were selected, and the samplerate was changed `k` times. -/
inductive Since (S : Sys K C) (ws : List K) (nw L : ℕ) : ℕ → Osc K C → Prop where
  | init {sr dur wt o p d o' r} (hb : Built S.env ws nw L sr dur wt) (hi : InitOk S.env.fl p d)
      (h : S.init o (some wt) p d = .ok (o', r)) : Since S ws nw L 0 o'
  | process {k o dir ps out o' ys} (ho : Since S ws nw L k o)
      (hp : BlockOk S.env.fl dir o.prevPhase ps) (hl : ps.length = out.length)
      (h : S.process dir o ps out = .ok (o', ys)) : Since S ws nw L k o'
  | setWaveform {k o} {i : ℤ} {o'} (ho : Since S ws nw L k o) (h0 : 0 ≤ i) (h1 : i < nw)
      (h : S.setWaveform o i = .ok o') : Since S ws nw L k o'
  | reset {k o p d o'} (ho : Since S ws nw L k o) (hi : InitOk S.env.fl p d)
      (h : S.resetInternals o p d = .ok o') : Since S ws nw L k o'
  | updateSamplerate {k o sr o'} (ho : Since S ws nw L k o) (hs : IsRate S.env.fl sr)
      (hx : 1 ≤ S.env.fl (WavetableData.defaultDuration S.env * sr))
      (h : S.updateSamplerate o sr = .ok o') : Since S ws nw L (k + 1) o'

/-- The tables held are those which `build` makes from the samples `ws`. -/
def HeldTables (S : Sys K C) (ws : List K) (nw L : ℕ) (o : Osc K C) : Prop :=
  ∃ sr dur wt0 wt, IsRate S.env.fl sr ∧ ws.length = nw * 2 ^ L ∧
    WavetableData.build S.env ws nw sr dur = .ok (some wt0) ∧ o.wt = some wt ∧
    tablesOf wt = tablesOf wt0

/-- A random number that the forward sections of the unit tests may draw: a float above `2^-25` and below
1/2. -/
def RandomStep (r : K) : Prop := ieee32 r = r ∧ 1 / 2 ^ 25 < r ∧ r < 1 / 2

/-- A samplerate the tests may use: a positive float at which the default crossfade takes at least one sample
and fewer than `2^31`. -/
def RateOk (E : Env K) (sr : K) : Prop :=
  0 < sr ∧ IsRate E.fl sr ∧ 1 ≤ E.fl (WavetableData.defaultDuration E * sr) ∧ E.fl (WavetableData.defaultDuration E * sr) < 2 ^ 31

end Adwt
