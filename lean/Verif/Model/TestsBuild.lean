import Verif.Model.Tests

/-!
# The remaining tests of `tests/wavetable_data_tests.cpp`, as programs

The sizes and the samples (all zero in the tests) are arguments. A `REQUIRE` or `CHECK` that fails is
`false`.
-/

namespace Adwt.Tests
variable {K : Type} [Field K] [LinearOrder K] [FloorRing K]

/-- Whether a test case ending in `REQUIRE(wavetable_data.get() == nullptr)` passes: "Invalid samplerate",
"Invalid waveform span" and "Invalid num_waveforms", `tests/wavetable_data_tests.cpp:105-148`. -/
def returnsNull (E : Env K) (ws : List K) (nw : Int) (sr : K) : R Bool := do
  let wt ← WavetableData.build E ws nw sr (WavetableData.defaultDuration E)
  return wt.isNone

/-- The checks of the four tables of one waveform, `tests/wavetable_data_tests.cpp:69-78`. -/
def sizesOf (wt : WavetableData K) (size : Nat) (i w : Nat) : R Bool := do
  let m ← wt.mSpan w i
  let q ← wt.qSpan w i
  let md ← wt.mDiffSpan w i
  let qd ← wt.qDiffSpan w i
  return decide (m.length = size ∧ q.length = size ∧ md.length = size ∧ qd.length = size)

/-- The checks of one mipmap level, `tests/wavetable_data_tests.cpp:61-79`. -/
def levelSizes (wt : WavetableData K) (len i : Nat) : R Bool := do
  let ph ← wt.phaseSpan i
  let bs ← (List.range wt.numWaveforms.toNat).mapM (sizesOf wt (len / 2 ^ i) i)
  return decide (ph.length = len / 2 ^ i + 1) && bs.all id

/-- "Valid build", `tests/wavetable_data_tests.cpp:37-103`, with the random numbers `ds`. `std::log2` of the
length, a power of two, is exact. -/
def validBuild (E : Env K) (len nw : Nat) (ws : List K) (sr : K) (ds : List K) : R Bool := do
  let wt? ← WavetableData.build E ws nw sr (WavetableData.defaultDuration E)
  match wt? with
  | none => return false
  | some wt => do
    let bs ← (List.range wt.numMipMapTables.toNat).mapM (levelSizes wt len)
    let b ← indicesLoop E wt ds
    return decide (wt.numWaveforms = nw ∧ wt.numMipMapTables = (Nat.log2 len : Int) - 1) && bs.all id && b

end Adwt.Tests
