import Verif.Spec.Bank
import Verif.Spec.Reached

/-!
# Programs over the public classes: oscillators, wavetables, and handing them on

What the caller has to keep to, in terms of what the caller knows: which `unique_ptr` holds a wavetable of
which size, which oscillator has which one, and the last phase given to it.
-/

namespace Adwt
variable {K C : Type} [Field K] [LinearOrder K] [IsStrictOrderedRing K] [FloorRing K]
variable [Zero C] [Add C] [Sub C] [Mul C] [Div C]

/-- A statement of a program: the calls of `Instr`, the member functions of a wavetable held in a
variable, and the moves. -/
inductive Stmt (K : Type) where
  | call (c : Instr K)
  /-- `slots[s]->updateSamplerate(sr, duration)`, `adwt/wavetable_data.hpp:92` -/
  | tableRate (s : ℕ) (sr dur : K)
  /-- `slots[s]->findMipMapIndices(d)`, `adwt/wavetable_data.hpp:161-164` -/
  | tableFind (s : ℕ) (d : K)
  /-- `slots[t] = std::move(slots[s])` -/
  | moveTable (s t : ℕ)
  /-- `new (&oscs[j]) Oscillator(std::move(oscs[i]))`: the implicit move constructor of `Oscillator`
  (`adwt/adwt.hpp:387-409`: a `unique_ptr`, constant arrays, numbers), as when a `std::vector` grows -/
  | moveOsc (i j : ℕ)

/-- Executing one statement. -/
def Bank.execS (S : ℕ → Sys K C) (b : Bank K C) : Stmt K → R (Bank K C)
  | .call c => b.exec S c
  | .tableRate s sr dur =>
    match b.slots s with
    | none => .error .nullDeref
    | some wt => do
      let wt' ← wt.updateSamplerate (S 0).env sr dur
      return { b with slots := Function.update b.slots s (some wt') }
  | .tableFind s d =>
    match b.slots s with
    | none => .error .nullDeref
    | some wt => do
      let (wt', _) ← wt.findMipMapIndices (S 0).env d
      return { b with slots := Function.update b.slots s (some wt') }
  | .moveTable s t =>
    .ok { b with slots := Function.update (Function.update b.slots s none) t (b.slots s) }
  | .moveOsc i j =>
    .ok ⟨Function.update (Function.update b.oscs j (b.oscs i)) i { b.oscs i with wt := none },
      b.slots, b.logs⟩

/-- Executing a program. -/
def Bank.runS (S : ℕ → Sys K C) (b : Bank K C) : List (Stmt K) → R (Bank K C)
  | [] => .ok b
  | c :: cs => do
    let b ← b.execS S c
    b.runS S cs

/-- The size of a wavetable: `nw` waveforms of `2^L` samples. -/
structure Size where
  nw : ℕ
  L : ℕ

/-- What the caller knows: the size of the wavetable of each oscillator and the last phase given to it
(`none`: no wavetable), and the size of the wavetable in each variable (`none`: null). -/
structure Known (K : Type) where
  oscs : ℕ → Option (Size × K)
  slots : ℕ → Option Size

/-- Nothing has been built. -/
def Known.start : Known K := ⟨fun _ => none, fun _ => none⟩

/-- A samplerate and a crossfade duration the library can use: a positive float well inside the range,
and a crossfade of at least one sample which fits an `int`. -/
def UsableRate (E : Env K) (sr dur : K) : Prop :=
  0 < sr ∧ IsRate E.fl sr ∧ 1 ≤ E.fl (dur * sr) ∧ E.fl (dur * sr) < 2 ^ 31

/-- A phase and a step that may be given to `init`, `swapWavetable` and `resetInternals`. -/
def UsableState (E : Env K) (p d : K) : Prop := InitOk E.fl p d ∧ (d < 0 → p ≠ 0)

/-- The caller's side of the contract: `Legal S k c k'` says that a caller who knows `k` may execute `c`,
and then knows `k'`. -/
inductive Legal (S : ℕ → Sys K C) : Known K → Stmt K → Known K → Prop where
  | build {k s ws} {z : Size} {sr dur} (hn : 0 < z.nw) (h2 : 2 ≤ z.L) (h18 : z.L ≤ 18)
      (hws : ws.length = z.nw * 2 ^ z.L) (hr : UsableRate (S 0).env sr dur) :
      Legal S k (.call (.build s ws z.nw sr dur)) { k with slots := Function.update k.slots s (some z) }
  | init {k : Known K} {i s z p d} (hs : k.slots s = some z) (hi : UsableState (S 0).env p d) :
      Legal S k (.call (.init i s p d))
        ⟨Function.update k.oscs i (some (z, p)), Function.update k.slots s none⟩
  /-- `init` with a null pointer returns 1 and does nothing -/
  | initNull {k : Known K} {i s p d} (hs : k.slots s = none) : Legal S k (.call (.init i s p d)) k
  | swap {k : Known K} {i s t z p d} (hs : k.slots s = some z) (hi : UsableState (S 0).env p d) :
      Legal S k (.call (.swap i s t p d))
        ⟨Function.update k.oscs i (some (z, p)),
          Function.update (Function.update k.slots s none) t ((k.oscs i).map (·.1))⟩
  /-- `swapWavetable` with a null pointer returns a null pointer -/
  | swapNull {k : Known K} {i s t p d} (hs : k.slots s = none) :
      Legal S k (.call (.swap i s t p d)) { k with slots := Function.update k.slots t none }
  | process {k : Known K} {i z prev dir ps} (ho : k.oscs i = some (z, prev))
      (hp : BlockSafe (S 0).env.fl dir prev ps) :
      Legal S k (.call (.process i dir ps))
        { k with oscs := Function.update k.oscs i (some (z, ps.getLastD prev)) }
  | setWaveform {k : Known K} {i z prev} {w : ℤ} (ho : k.oscs i = some (z, prev)) (h0 : 0 ≤ w)
      (h1 : w < z.nw) : Legal S k (.call (.setWaveform i w)) k
  | reset {k : Known K} {i z prev p d} (ho : k.oscs i = some (z, prev))
      (hi : UsableState (S 0).env p d) :
      Legal S k (.call (.reset i p d)) { k with oscs := Function.update k.oscs i (some (z, p)) }
  | updateSamplerate {k : Known K} {i z prev sr} (ho : k.oscs i = some (z, prev))
      (hr : UsableRate (S 0).env sr (WavetableData.defaultDuration (S 0).env)) :
      Legal S k (.call (.updateSamplerate i sr)) k
  | tableRate {k : Known K} {s z sr dur} (hs : k.slots s = some z) (hr : UsableRate (S 0).env sr dur) :
      Legal S k (.tableRate s sr dur) k
  | tableFind {k : Known K} {s z d} (hs : k.slots s = some z) (hd : 0 < d) : Legal S k (.tableFind s d) k
  | moveTable {k : Known K} {s t} :
      Legal S k (.moveTable s t)
        { k with slots := Function.update (Function.update k.slots s none) t (k.slots s) }
  /-- both of the same type; a new object, so not onto itself -/
  | moveOsc {k : Known K} {i j} (hij : i ≠ j) (ht : S i = S j) :
      Legal S k (.moveOsc i j)
        { k with oscs := Function.update (Function.update k.oscs j (k.oscs i)) i none }

/-- A legal program. -/
inductive LegalProg (S : ℕ → Sys K C) : Known K → List (Stmt K) → Known K → Prop where
  | nil {k} : LegalProg S k [] k
  | cons {k k' k'' c cs} (h : Legal S k c k') (hs : LegalProg S k' cs k'') : LegalProg S k (c :: cs) k''

/-- Number of samples that a statement asks oscillator `i` for. -/
def Stmt.samples (i : ℕ) : Stmt K → ℕ
  | .call (.process j _ ps) => if j = i then ps.length else 0
  | _ => 0

/-- What the caller knows is so: of every variable and oscillator, as far as the getters tell. -/
structure Known.Holds (S : ℕ → Sys K C) (k : Known K) (b : Bank K C) : Prop where
  noOsc : ∀ i, k.oscs i = none → (b.oscs i).wt = none
  noTable : ∀ s, k.slots s = none → b.slots s = none
  osc : ∀ i z p, k.oscs i = some (z, p) → (S i).numWaveforms (b.oscs i) = .ok z.nw ∧
    (b.oscs i).prevPhase = p ∧ (b.oscs i).prevPhaseDiff ≠ 0 ∧ 0 ≤ (b.oscs i).crt ∧ (b.oscs i).crt < z.nw
  table : ∀ s z, k.slots s = some z → ∃ wt, b.slots s = some wt ∧ wt.numWaveforms = z.nw ∧
    wt.numMipMapTables = z.L - 1 ∧ wt.waveformLen 0 = .ok (2 ^ z.L)

end Adwt
