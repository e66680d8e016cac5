import Verif.Spec.Polarity

/-!
# Programs with many oscillators, and schedules
-/

namespace Adwt
variable {K C : Type} [Field K] [LinearOrder K] [FloorRing K]
variable [Zero C] [Add C] [Sub C] [Mul C] [Div C]

/-- What a program with several oscillators holds: oscillator objects, variables of type
`std::unique_ptr<WavetableData>`, and for every oscillator all that its `process` calls have written so
far. -/
@[ext] structure Bank (K C : Type) where
  oscs : ℕ → Osc K C
  slots : ℕ → Option (WavetableData K)
  logs : ℕ → List K

/-- One statement of such a program; `i` is the number of an oscillator, `s` and `t` are numbers of
`unique_ptr` variables. -/
inductive Instr (K : Type) where
  /-- `slots[s] = WavetableData::build(waveforms, num_waveforms, samplerate, duration)` -/
  | build (s : ℕ) (waveforms : List K) (numWf : Int) (sr dur : K)
  /-- `oscs[i].init(std::move(slots[s]), {phase, d})`, `adwt/adwt.cpp:48-58` -/
  | init (i s : ℕ) (phase d : K)
  /-- `slots[t] = oscs[i].swapWavetable(std::move(slots[s]), {phase, d})`, `adwt/adwt.cpp:60-71` -/
  | swap (i s t : ℕ) (phase d : K)
  | process (i : ℕ) (dir : Sys.Direction) (phases : List K)
  | setWaveform (i : ℕ) (w : Int)
  | reset (i : ℕ) (phase d : K)
  | updateSamplerate (i : ℕ) (sr : K)

/-- Executing one statement. The oscillators may be of different types (`S i`). `init` and
`swapWavetable` take the wavetable out of the variable they are given. -/
def Bank.exec (S : ℕ → Sys K C) (b : Bank K C) : Instr K → R (Bank K C)
  | .build s ws n sr dur => do
    -- the environment is that of the compilation, the same for every oscillator type
    let w ← WavetableData.build (S 0).env ws n sr dur
    return { b with slots := Function.update b.slots s w }
  | .init i s p d => do
    let (o, _) ← (S i).init (b.oscs i) (b.slots s) p d
    return { b with oscs := Function.update b.oscs i o, slots := Function.update b.slots s none }
  | .swap i s t p d => do
    let (o, old) ← (S i).swapWavetable (b.oscs i) (b.slots s) p d
    return { b with
      oscs := Function.update b.oscs i o
      slots := Function.update (Function.update b.slots s none) t old }
  | .process i dir ps => do
    let (o, ys) ← (S i).process dir (b.oscs i) ps (List.replicate ps.length 0)
    return { b with
      oscs := Function.update b.oscs i o
      logs := Function.update b.logs i (b.logs i ++ ys) }
  | .setWaveform i w => do
    let o ← (S i).setWaveform (b.oscs i) w
    return { b with oscs := Function.update b.oscs i o }
  | .reset i p d => do
    let o ← (S i).resetInternals (b.oscs i) p d
    return { b with oscs := Function.update b.oscs i o }
  | .updateSamplerate i sr => do
    let o ← (S i).updateSamplerate (b.oscs i) sr
    return { b with oscs := Function.update b.oscs i o }

/-- Executing a program. -/
def Bank.run (S : ℕ → Sys K C) (b : Bank K C) : List (Instr K) → R (Bank K C)
  | [] => .ok b
  | c :: cs => do
    let b ← b.exec S c
    b.run S cs

/-- All objects in their default constructed state. -/
def Bank.fresh (S : ℕ → Sys K C) : Bank K C :=
  ⟨fun i => (S i).fresh, fun _ => none, fun _ => []⟩

/-- The statement names only oscillators in `O` and `unique_ptr` variables in `V`. -/
def Instr.Names (O V : ℕ → Prop) : Instr K → Prop
  | .build s .. => V s
  | .init i s .. => O i ∧ V s
  | .swap i s t .. => O i ∧ V s ∧ V t
  | .process i .. => O i
  | .setWaveform i _ => O i
  | .reset i .. => O i
  | .updateSamplerate i _ => O i

/-- A schedule: which thread executed which statement, in order of execution. -/
abbrev Schedule (K : Type) := List (ℕ × Instr K)

/-- The program of thread `t`: its statements, in the order in which it executed them. -/
def Schedule.program (t : ℕ) (cs : Schedule K) : List (Instr K) :=
  (cs.filter (·.1 = t)).map (·.2)

/-- Oscillator `i` belongs to thread `oscOwner i` and variable `s` to thread `slotOwner s`; no thread
names an object of another one. -/
def Schedule.Separate (oscOwner slotOwner : ℕ → ℕ) (cs : Schedule K) : Prop :=
  ∀ c ∈ cs, c.2.Names (fun i => oscOwner i = c.1) (fun s => slotOwner s = c.1)

/-- The two states hold the same in all objects of thread `t`. -/
structure Bank.Same (oscOwner slotOwner : ℕ → ℕ) (t : ℕ) (a b : Bank K C) : Prop where
  oscs : ∀ i, oscOwner i = t → a.oscs i = b.oscs i
  logs : ∀ i, oscOwner i = t → a.logs i = b.logs i
  slots : ∀ s, slotOwner s = t → a.slots s = b.slots s

/-- The statements that a program using only oscillator `i` executes for a `Call`, with variable `s`
for its wavetables. -/
def Call.instrs (i s : ℕ) : Call K → List (Instr K)
  | .init ws n sr dur p d => [.build s ws n sr dur, .init i s p d]
  | .swap ws n sr dur p d => [.build s ws n sr dur, .swap i s s p d]
  | .process dir ps => [.process i dir ps]
  | .setWaveform w => [.setWaveform i w]
  | .reset p d => [.reset i p d]
  | .updateSamplerate sr => [.updateSamplerate i sr]

end Adwt
