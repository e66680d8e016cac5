import Verif.Model.Osc

/-!
# The unit tests, as programs

`tests/oscillator_tests.cpp` and the part of `tests/wavetable_data_tests.cpp` that uses random
numbers. The random numbers are arguments: a run of the test executable is one choice of them, so a
statement about all arguments is a statement about all seeds. Each of the tests is run by the authors
with one seed and a few sizes. Not modelled: the test framework; a `REQUIRE` that fails is `false`.
-/

namespace Adwt.Tests
variable {K C : Type} [Field K] [LinearOrder K] [FloorRing K]
variable [Zero C] [Add C] [Sub C] [Mul C] [Div C]

/-- `while (--count) osc.process<kBidirectionnal>(phase_vector, output_vector)`,
`tests/oscillator_tests.cpp:84-88`: the same block `n` times. Returns the last content of
`output_vector`. -/
def repeatBlock (S : Sys K C) (ps : List K) : Nat → Osc K C → List K → R (Osc K C × List K)
  | 0, o, out => .ok (o, out)
  | n + 1, o, out => do
    let (o, out) ← S.process .kBidirectionnal o ps out
    repeatBlock S ps n o out

/-- The phases of one block, `tests/oscillator_tests.cpp:99-105`:
`phase = reduce(prev_phase + rng.get(), 1.F)`. -/
def reducePhases (E : Env K) : K → List K → R (List K)
  | _, [] => .ok []
  | prev, r :: rs => do
    let p ← Maths.reduceF E (E.fl (prev + r)) 1
    let ps ← reducePhases E p rs
    return p :: ps

/-- The loop of the forward sections, `tests/oscillator_tests.cpp:97-107`: one list of random numbers
per block, `prev_phase` is carried from block to block. -/
def forwardBlocks (S : Sys K C) : List (List K) → Osc K C → K → List K → R (Osc K C × List K)
  | [], o, _, out => .ok (o, out)
  | rs :: blocks, o, prev, out => do
    let ps ← reducePhases S.env prev rs
    let (o, out) ← S.process .kForward o ps out
    forwardBlocks S blocks o (ps.getLastD prev) out

/-- The common beginning of "Valid init ...", `tests/oscillator_tests.cpp:52-66` (and the same lines for
the other filters): build, `init` with the default state, `REQUIRE` and the two `CHECK`s. -/
def start (S : Sys K C) (ws : List K) (nw : Int) (sr : K) : R (Osc K C × Bool) := do
  let wt ← WavetableData.build S.env ws nw sr (WavetableData.defaultDuration S.env)
  let (o, res) ← S.init S.fresh wt 0 (S.env.fl (2 / 5))
  let n ← S.numWaveforms o
  return (o, decide (wt.isSome = true ∧ res = 0 ∧ o.crt = 0 ∧ n = nw))

/-- The beginning of the sections "Then valid swap ...", `tests/oscillator_tests.cpp:111-117, 165-177`:
a second wavetable is built and swapped in with the default state; the pointer handed back must not be
null. -/
def swapIn (S : Sys K C) (o : Osc K C) (ws : List K) (nw : Int) (sr : K) : R (Osc K C × Bool) := do
  let wt ← WavetableData.build S.env ws nw sr (WavetableData.defaultDuration S.env)
  let (o, old) ← S.swapWavetable o wt 0 (S.env.fl (2 / 5))
  return (o, decide (wt.isSome = true ∧ old.isSome = true))

/-- Section "Then processing bidirectionnal", `tests/oscillator_tests.cpp:52-89`. -/
def bidirectional (S : Sys K C) (ws : List K) (nw : Int) (sr : K) (ps : List K) : R Bool := do
  let (o, b) ← start S ws nw sr
  let _ ← repeatBlock S ps 9 o (List.replicate ps.length 0)
  return b

/-- Section "Then processing forward", `tests/oscillator_tests.cpp:52-66, 91-108`: nine blocks. -/
def forward (S : Sys K C) (ws : List K) (nw : Int) (sr : K) (n : Nat) (blocks : List (List K)) : R Bool := do
  let (o, b) ← start S ws nw sr
  let _ ← forwardBlocks S blocks o 0 (List.replicate n 0)
  return b

/-- Sections "Then valid swap ... and processing bidirectionnal", `tests/oscillator_tests.cpp:110-134,
165-197`. -/
def swapBidirectional (S : Sys K C) (ws ws' : List K) (nw nw' : Int) (sr : K) (ps : List K) : R Bool := do
  let (o, b) ← start S ws nw sr
  let (o, b') ← swapIn S o ws' nw' sr
  let _ ← repeatBlock S ps 9 o (List.replicate ps.length 0)
  return b && b'

/-- Sections "Then valid swap ... and processing forward", `tests/oscillator_tests.cpp:136-158,
199-227`. -/
def swapForward (S : Sys K C) (ws ws' : List K) (nw nw' : Int) (sr : K) (n : Nat)
    (blocks : List (List K)) : R Bool := do
  let (o, b) ← start S ws nw sr
  let (o, b') ← swapIn S o ws' nw' sr
  let _ ← forwardBlocks S blocks o 0 (List.replicate n 0)
  return b && b'

/-- One of the runs B.1, A.2, B.2 of "Update samplerate", `tests/oscillator_tests.cpp:570-583`. -/
def rerun (S : Sys K C) (o : Osc K C) (sr p0 d0 : K) (ps : List K) : R (Osc K C × List K) := do
  let o ← S.updateSamplerate o sr
  let o ← S.resetInternals o p0 d0
  S.process .kBidirectionnal o ps (List.replicate ps.length 0)

/-- "Update samplerate", `tests/oscillator_tests.cpp:521-583`: the four outputs A.1, B.1, A.2, B.2 that
are compared in lines 585-603; nothing if the first `REQUIRE`s fail. -/
def updateSamplerate (S : Sys K C) (ws : List K) (nw : Int) (srA srB p0 d0 : K) (ps : List K) :
    R (Option (List K × List K × List K × List K)) := do
  let wt ← WavetableData.build S.env ws nw srA (WavetableData.defaultDuration S.env)
  let (o, res) ← S.init S.fresh wt p0 d0
  if wt.isNone ∨ res ≠ 0 then return none
  let (o, a1) ← S.process .kBidirectionnal o ps (List.replicate ps.length 0)
  let (o, b1) ← rerun S o srB p0 d0 ps
  let (o, a2) ← rerun S o srA p0 d0 ps
  let (_, b2) ← rerun S o srB p0 d0 ps
  return some (a1, b1, a2, b2)

/-- The four `REQUIRE`s on the result of one `findMipMapIndices`,
`tests/wavetable_data_tests.cpp:96-101`. -/
def indicesRight (E : Env K) (numTables : Int) (t : MipMapIndices K) : Bool :=
  decide (E.fl (t.weight + t.weightUp) = 1 ∧ t.idx ≥ 0 ∧ t.idx < numTables ∧
    (t.idx + 1 = t.idxUp ∨ (t.idx = t.idxUp ∧ t.weight = 1)))

/-- The loop of "Valid build" over random steps, `tests/wavetable_data_tests.cpp:82-102`. -/
def indicesLoop (E : Env K) : WavetableData K → List K → R Bool
  | _, [] => .ok true
  | wt, d :: ds => do
    let (wt', t) ← wt.findMipMapIndices E d
    let b ← indicesLoop E wt' ds
    return indicesRight E wt'.numMipMapTables t && b

end Adwt.Tests
