import Verif.Model.CrossFader

/-!
# `adwt/wavetable_data.hpp` and `adwt/wavetable_data.cpp`
-/

namespace Adwt
variable {K : Type} [Field K] [LinearOrder K] [FloorRing K]

/-- The members of `WavetableData`, `adwt/wavetable_data.hpp:185-190`. `m[w][i]` is the table of
waveform `w` at mipmap level `i`. -/
structure WavetableData (K : Type) where
  m : List (List (List K))
  q : List (List (List K))
  mDiff : List (List (List K))
  qDiff : List (List (List K))
  phases : List (List K)
  cf : CrossFader K
deriving DecidableEq

namespace WavetableData

/-- `v[i][j]` on a vector of vectors. -/
def rd2 {α : Type} (v : List (List α)) (i j : Int) : R α := do
  let r ← rd v i
  rd r j

/-- `m(waveform, mipmap)`, `adwt/wavetable_data.hpp:101-104`. -/
def mSpan (d : WavetableData K) (w i : Int) : R (List K) := rd2 d.m w i
/-- `q(waveform, mipmap)`, `adwt/wavetable_data.hpp:111-114`. -/
def qSpan (d : WavetableData K) (w i : Int) : R (List K) := rd2 d.q w i
/-- `mDiff(waveform, mipmap)`, `adwt/wavetable_data.hpp:121-124`. -/
def mDiffSpan (d : WavetableData K) (w i : Int) : R (List K) := rd2 d.mDiff w i
/-- `qDiff(waveform, mipmap)`, `adwt/wavetable_data.hpp:131-134`. -/
def qDiffSpan (d : WavetableData K) (w i : Int) : R (List K) := rd2 d.qDiff w i
/-- `phases(mipmap)`, `adwt/wavetable_data.hpp:140-142`. -/
def phaseSpan (d : WavetableData K) (i : Int) : R (List K) := rd d.phases i
/-- `numWaveforms()`, `adwt/wavetable_data.hpp:146-148`. -/
def numWaveforms (d : WavetableData K) : Int := d.m.length
/-- `numMipMapTables()`, `adwt/wavetable_data.hpp:153-155`. -/
def numMipMapTables (d : WavetableData K) : Int := d.cf.numMipMapTables
/-- `waveformLen(mipmap)`, `adwt/wavetable_data.hpp:159-161`. -/
def waveformLen (d : WavetableData K) (i : Int) : R Int := do
  let t ← rd2 d.m 0 i
  return (t.length : Int)
/-- `findMipMapIndices`, `adwt/wavetable_data.hpp:166-169`; mutates the crossfader. -/
def findMipMapIndices (E : Env K) (d : WavetableData K) (x : K) :
    R (WavetableData K × MipMapIndices K) := do
  let (c, t) ← d.cf.newIndices E x
  return ({ d with cf := c }, t)

/-- A `double` division followed by the cast to `float`. -/
def ddiv (E : Env K) (a b : K) : R K := fdiv (fun x => E.fl (E.dbl x)) a b

/-- `computeM`, `adwt/wavetable_data.cpp:43-45`: `double` arithmetic, then a cast to `float`. -/
def computeM (E : Env K) (x0 x1 y0 y1 : K) : R K := ddiv E (E.dbl (y1 - y0)) (E.dbl (x1 - x0))

/-- `computeQ`, `adwt/wavetable_data.cpp:47-49`: `double` arithmetic, then a cast to `float`. -/
def computeQ (E : Env K) (x0 x1 y0 y1 : K) : R K :=
  ddiv E (E.dmm y0 (E.dbl (x1 - x0)) x0 (E.dbl (y1 - y0))) (E.dbl (x1 - x0))

/-- The four tables of one waveform at one mipmap level. -/
structure MQ (K : Type) where
  m : List K
  q : List K
  mDiff : List K
  qDiff : List K
deriving DecidableEq

/-- Body of the first loop of `computeMQVector`, `adwt/wavetable_data.cpp:179-187`. -/
def mqEntry (E : Env K) (phaseVec waveform : List K) (i : Nat) : R (K × K) := do
  let y0 ← rd waveform (i : Int)
  let y1 ← rd waveform ((i + 1) % waveform.length : Nat)
  let x0 ← rd phaseVec (i : Int)
  let x1 ← rd phaseVec ((i : Int) + 1)
  let m ← computeM E x0 x1 y0 y1
  let q ← computeQ E x0 x1 y0 y1
  return (m, q)

/-- Body of the second loop of `computeMQVector`, `adwt/wavetable_data.cpp:190-193`:
`v[(i+1) % len] - v[i]`. -/
def diffEntry (fl : K → K) (v : List K) (len i : Nat) : R K := do
  let a ← rd v ((i + 1) % len : Nat)
  let b ← rd v (i : Int)
  return fl (a - b)

/-- `computeMQVector`, `adwt/wavetable_data.cpp:152-195`, as a function returning the four new
vectors instead of writing them into `m_[waveform_idx][mipmap_idx]` etc. The assertions of
lines 154-161 concern the sizes of the outer vectors, which hold by the `resize` calls of
lines 59-62 and 73-76; the case of zero mipmap tables, in which `m_[waveform_idx][mipmap_idx]`
is out of bounds, is handled by the caller `waveformTables`. Line 194 updates the last entry
(an empty waveform would write at index -1). -/
def computeMQVector (E : Env K) (phaseVec waveform : List K) : R (MQ K) := do
  let fl := E.fl
  let len := waveform.length
  let mq ← (List.range len).mapM (mqEntry E phaseVec waveform)
  let m := mq.map Prod.fst
  let q := mq.map Prod.snd
  let md ← (List.range len).mapM (diffEntry fl m len)
  let qd ← (List.range len).mapM (diffEntry fl q len)
  let last ← rd qd ((len : Int) - 1)
  let m0 ← rd m 0
  return ⟨m, q, md, qd.set (len - 1) (fl (last - m0))⟩

/-- `computePhaseVector`, `adwt/wavetable_data.cpp:217-224`. -/
def computePhaseVector (fl : K → K) (len : Nat) : R (List K) :=
  (List.range (len + 1)).mapM fun (i : Nat) => fdiv fl (fl (i : K)) (fl (len : K))

/-- `computePhaseVectors`, `adwt/wavetable_data.cpp:197-215`, as called by the constructor (with
no phase vector computed yet, so `prev_num = 0`). -/
def computePhaseVectors (fl : K → K) (num ogLen : Nat) : R (List (List K)) :=
  (List.range num).mapM fun i => computePhaseVector fl (ogLen / 2 ^ i)

/-- `kRepetitions`, `adwt/wavetable_data.cpp:252`. -/
def kRepetitions : Nat := 5

/-- `downsampleWaveform`, `adwt/wavetable_data.cpp:250-295`. An empty result signals failure. -/
def downsampleWaveform (E : Env K) (waveform : List K) (ratio : Nat) : List K :=
  let inSize := waveform.length
  let outSize := inSize / ratio
  let inMultiple := (List.replicate kRepetitions waveform).flatten
  let res := E.src inMultiple (outSize * kRepetitions) ratio
  if res.err ≠ 0 then []
  else if res.inputUsed ≠ inSize * kRepetitions ∨ res.outputGen ≠ outSize * kRepetitions then []
  else (List.range outSize).map fun i => res.data (outSize * (kRepetitions / 2) + i)

/-- `kMaxLibSamplerate`, `adwt/wavetable_data.cpp:80`. -/
def kMaxLibSamplerate : Nat := 8

/-- The samples from which mipmap entry `i` is computed together with the decimation ratio:
both branches of `adwt/wavetable_data.cpp:88-110`. `inter` is `intermediate_tables`. -/
def mipSource (og : List K) (inter : List (List K)) (i : Nat) : R (List K × Nat) :=
  if i ≤ kMaxLibSamplerate then .ok (og, 2 * 2 ^ (i - 1))
  else do
    let s ← rd inter ((i : Int) - kMaxLibSamplerate - 1)
    return (s, 256)

/-- One iteration of the mipmap loop, `adwt/wavetable_data.cpp:87-111`. The accumulator is
`intermediate_tables` and the tables computed so far. `ds_waveform` is `const`, so the
`std::move` of line 97 copies, and line 99 still sees the samples. -/
def mipStep (E : Env K) (phases : List (List K)) (og : List K)
    (acc : List (List K) × List (MQ K)) (i : Nat) : R (List (List K) × List (MQ K)) := do
  let (src, ratio) ← mipSource og acc.1 i
  let ds := downsampleWaveform E src ratio
  if ds.isEmpty then .error .runtimeError
  else do
    let inter := if i ≤ kMaxLibSamplerate ∧ i ≤ acc.1.length then acc.1.set (i - 1) ds else acc.1
    let pv ← rd phases (i : Int)
    let t ← computeMQVector E pv ds
    return (inter, acc.2 ++ [t])

/-- The body of the waveform loop of the constructor, `adwt/wavetable_data.cpp:69-112`. With no
mipmap table at all `phases_` is empty (assertion of line 162) and `m_[waveform_idx][0]`
(line 165) is out of bounds. -/
def waveformTables (E : Env K) (num : Nat) (phases : List (List K)) (og : List K) :
    R (List (MQ K)) := do
  chk E.dbg (phases ≠ [])
  let pv0 ← rd phases 0
  let t0 ← computeMQVector E pv0 og
  let inter := List.replicate (num - kMaxLibSamplerate - 1) ([] : List K)
  let res ← (List.range' 1 (num - 1)).foldlM (mipStep E phases og) (inter, [t0])
  return res.2

/-- `waveforms.subspan(w * len, len)`, `adwt/wavetable_data.cpp:69-70`. -/
def subspan (waveforms : List K) (len w : Nat) : List K := (waveforms.drop (w * len)).take len

/-- The constructor, `adwt/wavetable_data.cpp:52-113`. -/
def make (E : Env K) (waveforms : List K) (numWf : Nat) (sr : K) (xfade : Int) (len : Nat) :
    R (WavetableData K) := do
  let cf ← CrossFader.make E xfade (len : Int) sr
  chk E.dbg (len * numWf = waveforms.length)
  let num := cf.numMipMapTables.toNat
  let phases ← computePhaseVectors E.fl num len
  let tabs ← (List.range numWf).mapM fun w =>
    waveformTables E num phases (subspan waveforms len w)
  return ⟨tabs.map (·.map MQ.m), tabs.map (·.map MQ.q), tabs.map (·.map MQ.mDiff),
    tabs.map (·.map MQ.qDiff), phases, cf⟩

/-- The `try { ... } catch (std::runtime_error&)` of `adwt/wavetable_data.cpp:137-140`: only
`runtime_error` is turned into a null pointer; `std::length_error` is a `logic_error` and
escapes. -/
def catchRuntime {α : Type} (x : R α) : R (Option α) :=
  match x with
  | .ok a => .ok (some a)
  | .error .runtimeError => .ok none
  | .error e => .error e

/-- `WavetableData::build`, `adwt/wavetable_data.cpp:115-141`; `none` is `nullptr`. Sizes are
assumed to fit an `int`: `static_cast<int>(waveforms.size())` (line 129) is not wrapped here. -/
def build (E : Env K) (waveforms : List K) (numWf : Int) (sr dur : K) :
    R (Option (WavetableData K)) :=
  if waveforms.isEmpty then .ok none
  else if numWf ≤ 0 then .ok none
  else if sr ≤ 0 then .ok none
  else if waveforms.length % numWf.toNat ≠ 0 then .ok none
  else do
    let len := waveforms.length / numWf.toNat
    let p ← Maths.isPowerOfTwo E (len : Int)
    if p = false then return none
    else do
      let xfade ← toInt (E.fl (dur * sr))
      catchRuntime (make E waveforms numWf.toNat sr xfade len)

/-- One rebuilt waveform: the inner loop of `rebuildWaveforms`,
`adwt/wavetable_data.cpp:237-244`. `zip` stops at the shortest range. -/
def rebuildOne (E : Env K) (m q x : List K) : List K :=
  List.zipWith (fun (mq : K × K) x => E.mad mq.1 x mq.2) (m.zip q) x

/-- `rebuildWaveforms`, `adwt/wavetable_data.cpp:226-248`. The result vector has
`num_waveforms * waveformLen(0)` entries, each waveform filling its own slice. -/
def rebuildWaveforms (E : Env K) (d : WavetableData K) : R (List K) := do
  chk E.dbg (d.phases ≠ [])
  let _ ← d.waveformLen 0
  let ws ← (List.range d.m.length).mapM fun (w : Nat) => do
    let m ← d.mSpan (w : Int) 0
    let q ← d.qSpan (w : Int) 0
    let x ← d.phaseSpan 0
    return rebuildOne E m q x
  return ws.flatten

/-- `updateSamplerate`, `adwt/wavetable_data.cpp:143-149`: `std::swap(*this, *new_data)`
dereferences a null pointer when `build` failed. -/
def updateSamplerate (E : Env K) (d : WavetableData K) (sr dur : K) : R (WavetableData K) := do
  let og ← rebuildWaveforms E d
  let nd ← build E og d.numWaveforms sr dur
  match nd with
  | none => .error .nullDeref
  | some d' => return d'

/-- The default `crossfade_duration_s = 0.005F`, `adwt/wavetable_data.hpp:82,92`. -/
def defaultDuration (E : Env K) : K := E.fl (5 / 1000)

end WavetableData
end Adwt
